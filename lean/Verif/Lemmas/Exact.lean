import Verif.Lemmas.Honest
import Verif.Lemmas.Ranges
import Verif.Lemmas.Recorded
import Verif.Spec.Exact
/-!
Exactly when operations succeed.
-/

namespace Verif

open Spec

/-! ## Bringing a mining up to date -/

theorem upd_exact {cum : SMap} {date sh u i u' : Nat} (hu : u < 2 ^ 64) :
    Upd cum date sh u i u' ↔ i ≤ indexBefore cum date ∧ u + (indexBefore cum date - i) * sh / 10 ^ 16 < 2 ^ 64 ∧
      u' = u + (indexBefore cum date - i) * sh / 10 ^ 16 := by
  unfold Upd
  have hP : PRECISION = 10 ^ 16 := rfl
  rw [hP]
  generalize hq : (indexBefore cum date - i) * sh = q
  unfold U64 U128
  have := Nat.div_add_mod q (10 ^ 16)
  have := Nat.mod_lt q (show 0 < 10 ^ 16 by decide)
  generalize q / 10 ^ 16 = c at *
  constructor
  · rintro ⟨h1, h2, h3, h4, h5⟩
    refine ⟨h1, ?_, h5⟩
    rcases Nat.eq_zero_or_pos c with h | h
    · omega
    · exact h4 h
  · rintro ⟨h1, h2, h3⟩
    exact ⟨h1, by omega, by omega, fun _ => h2, h3⟩

theorem runOk_exact {cum : SMap} (hc : History cum) {t : Nat} {D : List (Nat × Nat)} (hD : Sorted D)
    {sh u i sh' u' : Nat} (hu : u < 2 ^ 64) :
    RunOk cum (midnight t) t D sh u i sh' u' ↔
      (i ≤ indexBefore cum t ∧ ∀ e ∈ D, e.1 ≤ midnight t → i ≤ indexBefore cum e.1) ∧ dueBy D (midnight t) ≤ sh ∧
      u + credit cum t D sh i < 2 ^ 64 ∧ sh' = sh - dueBy D (midnight t) ∧ u' = u + credit cum t D sh i := by
  have hmt : midnight t ≤ t := by unfold midnight; omega
  induction D generalizing sh u i with
  | nil =>
    rw [RunOk, upd_exact hu]
    simp only [credit, dueBy_nil, List.not_mem_nil, false_implies, implies_true, and_true, Nat.zero_le, true_and, Nat.sub_zero]
    constructor
    · rintro ⟨⟨h1, h2, h3⟩, h4⟩; exact ⟨h1, h2, h4, h3⟩
    · rintro ⟨h1, h2, h4, h3⟩; exact ⟨⟨h1, h2, h3⟩, h4⟩
  | cons a rest ih =>
    obtain ⟨e, v⟩ := a
    rw [RunOk, credit, dueBy_cons]
    have hlt := (sorted_cons.mp hD).1
    by_cases he : e ≤ midnight t
    · have hme : indexBefore cum e ≤ indexBefore cum t := indexBefore_mono hc (by omega)
      rw [if_neg (by omega), if_pos he, if_pos he]
      constructor
      · rintro ⟨u1, h1, hv, h2⟩
        rw [upd_exact hu] at h1
        obtain ⟨a1, a2, rfl⟩ := h1
        obtain ⟨⟨b1, b2⟩, b3, b4, b5, b6⟩ := (ih (sorted_cons.mp hD).2 a2).mp h2
        refine ⟨⟨by omega, fun x hx hxe => ?_⟩, by omega, by omega, by omega, by omega⟩
        rcases List.mem_cons.mp hx with rfl | hx
        · exact a1
        · exact Nat.le_trans a1 (b2 x hx hxe)
      · rintro ⟨⟨b1, b2⟩, b3, b4, b5, b6⟩
        have a1 : i ≤ indexBefore cum e := b2 (e, v) List.mem_cons_self he
        refine ⟨_, (upd_exact hu).mpr ⟨a1, by omega, rfl⟩, by omega, ?_⟩
        refine (ih (sorted_cons.mp hD).2 (by omega)).mpr ⟨⟨hme, fun x hx _ => indexBefore_mono hc (Nat.le_of_lt (hlt x hx))⟩, by omega, by omega, by omega, by omega⟩
    · rw [if_pos (by omega), if_neg he, if_neg he, upd_exact hu]
      have h0 : dueBy rest (midnight t) = 0 := dueBy_eq_zero fun x hx => by have := hlt x hx; simp only at this; omega
      constructor
      · rintro ⟨⟨h1, h2, h3⟩, h4⟩
        refine ⟨⟨h1, fun x hx hxe => ?_⟩, by omega, h2, by omega, h3⟩
        rcases List.mem_cons.mp hx with rfl | hx
        · exact absurd hxe he
        · have := hlt x hx; simp only at this; omega
      · rintro ⟨⟨h1, -⟩, -, h2, h4, h3⟩
        exact ⟨⟨h1, h2, h3⟩, by omega⟩

/-- Bringing a mining up to date: when it works, and the result. -/
theorem refresh_exact {cum : SMap} (hc : History cum) {now : Nat} {m m' : Mining} (hd : Sorted m.diffs)
    (hu : m.unclaimed < 2 ^ 64) :
    m.refreshRewards now cum = .ok m' ↔ Refreshable now cum m ∧
      m' = { m with index := indexBefore cum now, share := m.share - dueBy m.diffs (midnight now),
                    unclaimed := due now cum m, diffs := after m.diffs (midnight now) } := by
  rw [refresh_iff hc hd, bod_eq_midnight]
  constructor
  · rintro ⟨h1, sh', u', h2, h3, rfl⟩
    rw [runOk_exact hc hd hu] at h2
    obtain ⟨⟨b1, b2⟩, b3, b4, rfl, rfl⟩ := h2
    refine ⟨⟨h1, by omega, b1, b2, b4⟩, ?_⟩
    unfold due
    congr 1
    omega
  · rintro ⟨h, rfl⟩
    have hb := h.backed
    refine ⟨h.stake, _, _, (runOk_exact hc hd hu).mpr ⟨⟨h.index, h.locks⟩, by omega, h.rewards, rfl, rfl⟩, by omega, ?_⟩
    unfold due
    congr 1
    omega

/-- A mining with ordered expirations and 64-bit rewards. -/
def Fine (m : Mining) : Prop := Sorted m.diffs ∧ m.unclaimed < 2 ^ 64

/-- The mining brought up to date. -/
def settle (now : Nat) (cum : SMap) (m : Mining) : Mining :=
  { m with index := indexBefore cum now, share := m.share - dueBy m.diffs (midnight now), unclaimed := due now cum m,
           diffs := after m.diffs (midnight now) }

theorem refresh_settle {cum : SMap} (hc : History cum) {now : Nat} {m m' : Mining} (hm : Fine m) :
    m.refreshRewards now cum = .ok m' ↔ Refreshable now cum m ∧ m' = settle now cum m := refresh_exact hc hm.1 hm.2

theorem settle_fine {cum : SMap} {now : Nat} {m : Mining} (hm : Fine m) (h : Refreshable now cum m) :
    Fine (settle now cum m) := ⟨after_sorted hm.1 _, h.rewards⟩

/-- A mining that is up to date can be brought up to date, whatever its stake. -/
theorem refreshable_settled {cum : SMap} {now : Nat} {m : Mining} (hi : m.index = indexBefore cum now)
    (hd : ∀ e ∈ m.diffs, midnight now < e.1) :
    Refreshable now cum m ↔ m.share + m.stakeFromOthers < 2 ^ 64 ∧ m.unclaimed < 2 ^ 64 := by
  have hcr : ∀ {D : SMap} (sh : Nat), (∀ e ∈ D, midnight now < e.1) → credit cum now D sh (indexBefore cum now) = 0 := by
    intro D sh h
    cases D with
    | nil => simp [credit]
    | cons a rest =>
      have := h a List.mem_cons_self
      rw [show a = (a.1, a.2) from rfl, credit, if_neg (by omega)]
      simp
  have hdue : due now cum m = m.unclaimed := by unfold due; rw [hi, hcr _ hd]; rfl
  constructor
  · intro h; exact ⟨h.stake, hdue ▸ h.rewards⟩
  · rintro ⟨h1, h2⟩
    exact ⟨h1, by rw [dueBy_eq_zero hd]; omega, Nat.le_of_eq hi, fun e he h => by have := hd e he; omega, hdue ▸ h2⟩

theorem take_exact {now a : Nat} {p p' : Pool} {d d' : Option Mining} (hc : History p.cumulative)
    (hd : ∀ x, d = some x → Fine x) :
    p.withDelegate d (Pool.delegateSub now a) = .ok (p', d') ↔ CanTake now p.cumulative p.totalShare a d ∧
      p' = { p with totalShare := p.totalShare - if d.isSome then a else 0 } ∧
      d' = d.map fun x => settle now p.cumulative { x with stakeFromOthers := x.stakeFromOthers - a } := by
  cases d with
  | none => rw [withDelegate_none]; simp [CanTake]
  | some x =>
    have hx : Fine { x with stakeFromOthers := x.stakeFromOthers - a } := hd x rfl
    simp only [withDelegate_some, delegateSub_ok, refresh_settle hc hx, CanTake, Option.some.injEq, forall_eq',
      Option.isSome_some, if_true, Option.map_some]
    constructor
    · rintro ⟨y, ⟨h1, h2, ⟨h3, rfl⟩, rfl⟩, rfl⟩; exact ⟨⟨h1, h2, h3⟩, rfl, rfl⟩
    · rintro ⟨⟨h1, h2, h3⟩, rfl, rfl⟩; exact ⟨_, ⟨h1, h2, ⟨h3, rfl⟩, rfl⟩, rfl⟩

theorem give_exact {now a : Nat} {p p' : Pool} {d d' : Option Mining} (hc : History p.cumulative)
    (hd : ∀ x, d = some x → Fine x) :
    p.withDelegate d (Pool.delegateAdd now a) = .ok (p', d') ↔ CanGive now p.cumulative p.totalShare a d ∧
      p' = { p with totalShare := p.totalShare + if d.isSome then a else 0 } ∧
      d' = d.map fun x => settle now p.cumulative { x with stakeFromOthers := x.stakeFromOthers + a } := by
  cases d with
  | none => rw [withDelegate_none]; simp [CanGive]
  | some x =>
    have hx : Fine { x with stakeFromOthers := x.stakeFromOthers + a } := hd x rfl
    simp only [withDelegate_some, delegateAdd_ok, refresh_settle hc hx, CanGive, Option.some.injEq, forall_eq',
      Option.isSome_some, if_true, Option.map_some]
    unfold U64
    constructor
    · rintro ⟨y, ⟨h1, h2, ⟨h3, rfl⟩, rfl⟩, rfl⟩; exact ⟨⟨h1, h2, h3⟩, rfl, rfl⟩
    · rintro ⟨⟨h1, h2, h3⟩, rfl, rfl⟩; exact ⟨_, ⟨h1, h2, ⟨h3, rfl⟩, rfl⟩, rfl⟩

/-! ## Stake operations -/

theorem withdraw_exact {now a : Nat} {p : Pool} {m : Mining} {d : Option Mining} (hc : History p.cumulative)
    (hp : Sorted p.diffs) (hm : Fine m) (hd : ∀ x, d = some x → Fine x) :
    (∃ r, p.withdraw now m a d = .ok r) ↔ WithdrawOk now p m d a := by
  constructor
  · rintro ⟨⟨p', m', d'⟩, h⟩
    obtain ⟨m1, h1, h2, h3, -, h4⟩ := withdraw_ok hp h
    rw [bod_eq_midnight] at h3 h4
    obtain ⟨r1, rfl⟩ := (refresh_settle hc hm).mp h1
    have hb := r1.backed
    simp only [settle] at h2
    exact ⟨r1, by omega, by omega, ((take_exact (by exact hc) hd).mp h4).1⟩
  · rintro ⟨h1, h2, h3, h4⟩
    have h5 := (take_exact (p := { p with totalShare := p.totalShare - a - dueBy p.diffs (bod now),
                                          diffs := after p.diffs (bod now) }) (now := now) (a := a) (by exact hc) hd).mpr
      ⟨by rw [bod_eq_midnight]; exact h4, rfl, rfl⟩
    apply Exists.intro
    unfold Pool.withdraw
    simp only [res_bind_ok, Prod.exists, safeSub_ok, res_pure_ok]
    refine ⟨_, (refresh_settle hc hm).mpr ⟨h1, rfl⟩, _, ⟨by omega, rfl⟩, _, ⟨by simp only [settle]; omega, rfl⟩, _,
      (poolConsume_ok (by exact hp)).mpr ⟨by rw [bod_eq_midnight]; simp only; omega, rfl⟩, _, _, h5, rfl⟩

theorem terms_end {per : LockupPeriod} {t e : Nat} :
    per.endTimestamp t = .ok e ↔ ∃ k n, terms per = some (k, n) ∧ per.multiplier = k ∧ 1 ≤ k ∧ 1 ≤ n ∧
      midnight t + 86400 * n < 2 ^ 64 ∧ e = midnight t + 86400 * n := by
  rw [endTimestamp_ok, bod_eq_midnight]
  unfold U64 DAY
  cases per
  · simp [terms, LockupPeriod.days]
  all_goals
    simp only [terms, LockupPeriod.days, LockupPeriod.multiplier, Except.ok.injEq, Option.some.injEq, Prod.mk.injEq]
    constructor
    · rintro ⟨n, rfl, h1, h2⟩; exact ⟨_, _, ⟨rfl, rfl⟩, rfl, by decide, by decide, h1, h2⟩
    · rintro ⟨k, n, ⟨rfl, rfl⟩, -, -, -, h1, h2⟩; exact ⟨_, rfl, h1, h2⟩

theorem deposit_iff {caps : Caps} {now : Nat} {p : Pool} {m : Mining} {a : Nat} {per : LockupPeriod}
    {d : Option Mining} (hm : ∀ m1, m.refreshRewards now p.cumulative = .ok m1 → Sorted m1.diffs) :
    (∃ r, p.deposit caps now m a per d = .ok r) ↔
    ∃ m1 e, m.refreshRewards now p.cumulative = .ok m1 ∧ per.endTimestamp now = .ok e ∧
      a * per.multiplier < U64 ∧ p.totalShare + a * per.multiplier < U64 ∧
      m1.share + a * per.multiplier < U64 ∧
      (p.diffs.get e).getD 0 + (a * per.multiplier - a) < U64 ∧
      (m1.diffs.get e).getD 0 + (a * per.multiplier - a) < U64 ∧
      ∃ r, Pool.withDelegate { p with
          totalShare := p.totalShare + a * per.multiplier,
          diffs := addAt caps.pool p.diffs e (a * per.multiplier - a) } d
        (Pool.delegateAdd now a) = .ok r := by
  constructor
  · rintro ⟨⟨p', m', d'⟩, h⟩
    obtain ⟨m1, e, h1, h2, -, h3, h4, h5, h6, h7, -, h8⟩ := deposit_ok hm h
    exact ⟨m1, e, h1, h2, h3, h4, h5, h6, h7, _, h8⟩
  · rintro ⟨m1, e, h1, h2, h3, h4, h5, h6, h7, ⟨p', d'⟩, h8⟩
    obtain ⟨k, n, t1, hk, k1, -⟩ := terms_end.mp h2
    have hak : a ≤ a * per.multiplier := Nat.le_mul_of_pos_right a (by omega)
    have hf : LockupPeriod.flex.multiplier = 1 := rfl
    unfold Pool.deposit
    cases hg : m1.diffs.get e with
    | none =>
      apply Exists.intro
      simp only [res_bind_ok, safeMul64_ok, safeSub_ok, safeAdd64_ok, hf, Nat.mul_one]
      refine ⟨m1, h1, _, ⟨h3, rfl⟩, _, ⟨by omega, rfl⟩, _, ⟨hak, rfl⟩, _, ⟨h4, rfl⟩, _, ⟨h5, rfl⟩, _, h2,
        _, ⟨h6, rfl⟩, ?_⟩
      rw [hg]
      simp only [res_bind_ok, res_pure_ok, Prod.exists]
      exact ⟨_, rfl, p', d', h8, rfl⟩
    | some old =>
      rw [hg] at h7
      simp only [Option.getD_some] at h7
      apply Exists.intro
      simp only [res_bind_ok, safeMul64_ok, safeSub_ok, safeAdd64_ok, hf, Nat.mul_one]
      refine ⟨m1, h1, _, ⟨h3, rfl⟩, _, ⟨by omega, rfl⟩, _, ⟨hak, rfl⟩, _, ⟨h4, rfl⟩, _, ⟨h5, rfl⟩, _, h2,
        _, ⟨h6, rfl⟩, ?_⟩
      rw [hg]
      simp only [res_bind_ok, safeAdd64_ok, res_pure_ok, Prod.exists]
      exact ⟨_, ⟨h7, rfl⟩, _, rfl, p', d', h8, rfl⟩

theorem deposit_exact {caps : Caps} {now a : Nat} {per : LockupPeriod} {p : Pool} {m : Mining} {d : Option Mining}
    (hc : History p.cumulative) (hp : Sorted p.diffs) (hm : Fine m) (hd : ∀ x, d = some x → Fine x) :
    (∃ r, p.deposit caps now m a per d = .ok r) ↔ ∃ k n, terms per = some (k, n) ∧ DepositOk now p m d a k n := by
  have hm' : ∀ m1, m.refreshRewards now p.cumulative = .ok m1 → Sorted m1.diffs := by
    intro m1 h; obtain ⟨-, rfl⟩ := (refresh_settle hc hm).mp h; exact after_sorted hm.1 _
  rw [deposit_iff hm']
  constructor
  · rintro ⟨m1, e, h1, h2, h3, h4, h5, h6, h7, ⟨p', d'⟩, h8⟩
    obtain ⟨k, n, t1, hk, k1, n1, t2, rfl⟩ := terms_end.mp h2
    obtain ⟨r1, rfl⟩ := (refresh_settle hc hm).mp h1
    obtain ⟨h9, -⟩ := (give_exact (by exact hc) hd).mp h8
    rw [hk] at h3 h4 h5 h6 h7 h9
    simp only [settle] at h5 h7
    rw [get_after hm.1 (by omega)] at h7
    rw [← recordedAt_get hp] at h6
    rw [← recordedAt_get hm.1] at h7
    exact ⟨k, n, t1, r1, t2, h5, h4, h7, h6, h9⟩
  · rintro ⟨k, n, t1, h⟩
    have hk : per.multiplier = k ∧ 1 ≤ n ∧ per.endTimestamp now = .ok (midnight now + 86400 * n) := by
      have hd := h.date
      cases per <;> simp only [terms, Option.some.injEq, Prod.mk.injEq, reduceCtorEq] at t1 <;>
        obtain ⟨rfl, rfl⟩ := t1 <;>
        exact ⟨rfl, by decide, terms_end.mpr ⟨_, _, rfl, rfl, by decide, by decide, hd, rfl⟩⟩
    obtain ⟨hk, n1, he⟩ := hk
    refine ⟨_, _, (refresh_settle hc hm).mpr ⟨h.refresh, rfl⟩, he, ?_, ?_, ?_, ?_, ?_, ?_⟩
    · have := h.pool; rw [hk]; unfold U64; omega
    · rw [hk]; exact h.pool
    · rw [hk]; exact h.own
    · rw [hk, ← recordedAt_get hp]; exact h.poolTable
    · rw [hk]; simp only [settle]; rw [get_after hm.1 (by omega), ← recordedAt_get hm.1]; exact h.ownTable
    · rw [hk]
      exact ⟨_, (give_exact (by exact hc) hd).mpr ⟨h.delegate, rfl, rfl⟩⟩

theorem redelegate_exact {now a : Nat} {p : Pool} {m : Mining} {od nd : Option Mining} (hc : History p.cumulative)
    (hm : Fine m) (ho : ∀ x, od = some x → Fine x) (hn : ∀ x, nd = some x → Fine x) :
    (∃ r, p.changeDelegate now m nd od a = .ok r) ↔ RedelegateOk now p m od nd a := by
  constructor
  · rintro ⟨⟨p', m', nd', od'⟩, h⟩
    obtain ⟨h1, p1, h2, h3⟩ := changeDelegate_ok.mp h
    obtain ⟨r1, -⟩ := (refresh_settle hc hm).mp h1
    obtain ⟨r2, rfl, -⟩ := (take_exact hc ho).mp h2
    obtain ⟨r3, -⟩ := (give_exact (by exact hc) hn).mp h3
    refine ⟨r1, r2, ?_⟩
    simp only at r3
    cases od <;> exact r3
  · rintro ⟨h1, h2, h3⟩
    refine ⟨⟨_, _, _, _⟩, changeDelegate_ok.mpr ⟨(refresh_settle hc hm).mpr ⟨h1, rfl⟩, _,
      (take_exact hc ho).mpr ⟨h2, rfl, rfl⟩, (give_exact (by exact hc) hn).mpr ⟨?_, rfl, rfl⟩⟩⟩
    cases od <;> exact h3

theorem mem_get {l : SMap} (hs : Sorted l) {e v : Nat} : (e, v) ∈ l ↔ SMap.get l e = some v :=
  ⟨fun h => SMap.get_of_mem hs h, fun h => SMap.get_some_mem h⟩

theorem slash_exact {now n mu : Nat} {ex : Option Nat} {p : Pool} {m : Mining} (hc : History p.cumulative)
    (hp : Sorted p.diffs) (hm : Fine m) :
    (∃ r, p.slash now m n mu ex = .ok r) ↔ SlashOk now p m n mu ex := by
  have hm' : ∀ m1, m.refreshRewards now p.cumulative = .ok m1 → Sorted m1.diffs := by
    intro m1 h; obtain ⟨-, rfl⟩ := (refresh_settle hc hm).mp h; exact after_sorted hm.1 _
  constructor
  · rintro ⟨⟨p', m'⟩, h⟩
    obtain ⟨m1, h1, h2, h3, h4⟩ := slash_ok hp hm' h
    rw [bod_eq_midnight] at h3
    obtain ⟨r1, rfl⟩ := (refresh_settle hc hm).mp h1
    have hb := r1.backed
    simp only [settle] at h2
    refine ⟨⟨r1, by omega, by omega, by intro x hx; cases hx⟩, ?_⟩
    rintro ts rfl
    rcases h4 with ⟨h, -⟩ | ⟨ts', om, op, h5, h6, h7, h8, h9, h10, -⟩
    · cases h
    · cases h5
      rw [bod_eq_midnight] at h7 h8
      rw [bod_eq_midnight] at h8
      simp only [settle] at h7
      obtain ⟨g1, g2⟩ := mem_after.mp (SMap.get_some_mem h7)
      obtain ⟨g3, -⟩ := mem_after.mp (SMap.get_some_mem h8)
      exact ⟨h6, g2, ⟨om, g1, h9⟩, op, g3, h10⟩
  · rintro ⟨hw, hl⟩
    obtain ⟨⟨p1, m1, d1⟩, h1⟩ := (withdraw_exact hc hp hm (d := none) (by intro x hx; cases hx)).mpr hw
    obtain ⟨m2, g1, g2, g3, rfl, g4⟩ := withdraw_ok hp h1
    obtain ⟨-, rfl⟩ := (refresh_settle hc hm).mp g1
    rw [withDelegate_none] at g4
    obtain ⟨rfl, rfl⟩ := g4
    cases ex with
    | none =>
      apply Exists.intro
      unfold Pool.slash
      simp only [res_bind_ok, Prod.exists, res_pure_ok]
      exact ⟨_, _, _, h1, rfl⟩
    | some ts =>
      obtain ⟨l1, l2, ⟨v, l3, l4⟩, v', l5, l6⟩ := hl ts rfl
      apply Exists.intro
      unfold Pool.slash
      simp only [res_bind_ok, Prod.exists, res_pure_ok, safeSub_ok]
      refine ⟨_, _, _, h1, _, ⟨l1, rfl⟩, _, (modifyDiffs_ok (after_sorted hm.1 _)).mpr ⟨v, ?_, l4, rfl⟩, _,
        (modifyDiffs_ok (after_sorted hp _)).mpr ⟨v', ?_, l6, rfl⟩, rfl⟩
      · rw [bod_eq_midnight]; exact (mem_get (after_sorted hm.1 _)).mp (mem_after.mpr ⟨l3, l2⟩)
      · rw [bod_eq_midnight, bod_eq_midnight]; exact (mem_get (after_sorted hp _)).mp (mem_after.mpr ⟨l5, l2⟩)

/-- The first half of extending: what is taken out of the staker's mining (already up to date) and of the pool's total. -/
inductive TakenOut (now : Nat) (m : Mining) (old : LockupPeriod) (ts b : Nat) : (wt : Nat) → Mining → Prop
  | flat (h : old = .flex ∨ ∃ oe, old ≠ .flex ∧ old.endTimestamp ts = .ok oe ∧ oe ≤ now) :
      TakenOut now m old ts b b { m with share := m.share - b }
  | locked {oe v : Nat} (h : old ≠ .flex) (ends : old.endTimestamp ts = .ok oe) (future : now < oe)
      (recorded : SMap.get m.diffs oe = some v) (enough : b * old.multiplier - b ≤ v) :
      TakenOut now m old ts b (b * old.multiplier)
        { m with diffs := m.diffs.put oe (v - (b * old.multiplier - b)), share := m.share - b * old.multiplier }

theorem extend_iff {caps : Caps} {now : Nat} {p : Pool} {m : Mining} {op np : LockupPeriod}
    {ts b a : Nat} {d : Option Mining}
    (hm : ∀ m1, m.refreshRewards now p.cumulative = .ok m1 → Sorted m1.diffs ∧ m1.share < 2 ^ 64) :
    (∃ r, p.extend caps now m op np ts b a d = .ok r) ↔
    ∃ m1 wt m2 p3 d3, m.refreshRewards now p.cumulative = .ok m1 ∧ TakenOut now m1 op ts b wt m2 ∧ wt ≤ m1.share ∧
      wt ≤ p.totalShare ∧ b + a < 2 ^ 64 ∧
      Pool.withDelegate { p with totalShare := p.totalShare - wt } d (Pool.delegateSub now b) = .ok (p3, d3) ∧
      ∃ r, p3.deposit caps now m2 (b + a) np d3 = .ok r := by
  constructor
  · rintro ⟨⟨p', m', d'⟩, h⟩
    obtain ⟨m1, oe, p2, m2, p3, d3, h1, h2, h3, h4, h5, h6⟩ := extend_ok (fun m1 h => (hm m1 h).1) h
    rcases h3 with ⟨g1, g2, g3, ⟨old, g4, g5, rfl⟩, g6, g7, rfl⟩ | ⟨g1, g2, g3, rfl, rfl⟩
    · rcases h2 with ⟨-, rfl⟩ | ⟨e1, e2⟩
      · omega
      · exact ⟨m1, _, _, p3, d3, h1, .locked e1 e2 g1 g4 g5, g6, g7, h4, h5, _, h6⟩
    · refine ⟨m1, _, _, p3, d3, h1, .flat ?_, g2, g3, h4, h5, _, h6⟩
      rcases h2 with ⟨e, -⟩ | ⟨e1, e2⟩
      · exact Or.inl e
      · exact Or.inr ⟨oe, e1, e2, by omega⟩
  · rintro ⟨m1, wt, m2, p3, d3, h1, h2, h3, h4, h5, h6, r, h7⟩
    obtain ⟨hs, hb⟩ := hm m1 h1
    have hf : LockupPeriod.flex.multiplier = 1 := rfl
    refine ⟨r, ?_⟩
    unfold Pool.extend
    rw [res_bind_ok]
    refine ⟨m1, h1, ?_⟩
    dsimp only
    cases h2 with
    | flat h =>
      have key : ∃ oe, (if op = LockupPeriod.flex then pure 0 else op.endTimestamp ts : Res Nat) = .ok oe ∧ ¬ now < oe := by
        by_cases hx : op = .flex
        · exact ⟨0, by rw [if_pos hx]; rfl, by omega⟩
        · obtain ⟨oe, -, e1, e2⟩ := h.resolve_left hx
          exact ⟨oe, by rw [if_neg hx]; exact e1, by omega⟩
      obtain ⟨oe, k1, k2⟩ := key
      have tail : (do
          let flexStake ← safeMul64 b LockupPeriod.flex.multiplier
          let (p, m) ←
            if now < oe then do
              let weighted ← safeMul64 b op.multiplier
              let diff ← safeSub weighted flexStake
              let mdiffs ← Pool.modifyDiffs m1.diffs oe diff
              let share ← safeSub m1.share weighted
              let total ← safeSub p.totalShare weighted
              pure (({ p with totalShare := total } : Pool), ({ m1 with diffs := mdiffs, share := share } : Mining))
            else do
              let share ← safeSub m1.share flexStake
              let total ← safeSub p.totalShare flexStake
              pure (({ p with totalShare := total } : Pool), ({ m1 with share := share } : Mining))
          let amountToRestake ← safeAdd64 b a
          let (p, d) ← p.withDelegate d (Pool.delegateSub now b)
          p.deposit caps now m amountToRestake np d) = .ok r := by
        rw [res_bind_ok]
        refine ⟨b, by rw [safeMul64_ok, hf]; exact ⟨by unfold U64; omega, by omega⟩, ?_⟩
        rw [if_neg k2]
        simp only [res_bind_ok, safeSub_ok, safeAdd64_ok, res_pure_ok, Prod.exists]
        exact ⟨_, ⟨h3, rfl⟩, _, ⟨h4, rfl⟩, _, _, rfl, _, ⟨h5, rfl⟩, _, _, h6, h7⟩
      split at k1
      · rename_i hx
        rw [if_pos hx]
        rw [res_pure_ok] at k1
        subst k1
        simpa using tail
      · rename_i hx
        rw [if_neg hx, res_bind_ok]
        exact ⟨oe, k1, tail⟩
    | locked h ends future recorded enough =>
      rw [if_neg h, res_bind_ok]
      refine ⟨_, ends, ?_⟩
      rw [res_bind_ok]
      obtain ⟨k, n, -, hk, k1, -⟩ := terms_end.mp ends
      have hbk : b ≤ b * op.multiplier := Nat.le_mul_of_pos_right b (by omega)
      refine ⟨b, by rw [safeMul64_ok, hf]; exact ⟨by unfold U64; omega, by omega⟩, ?_⟩
      rw [if_pos future]
      simp only [res_bind_ok, safeMul64_ok, safeSub_ok, modifyDiffs_ok hs, safeAdd64_ok, res_pure_ok, Prod.exists]
      exact ⟨_, ⟨by unfold U64; omega, rfl⟩, _, ⟨hbk, rfl⟩, _, ⟨_, recorded, enough, rfl⟩, _, ⟨h3, rfl⟩, _, ⟨h4, rfl⟩, _, _,
        rfl, _, ⟨h5, rfl⟩, _, _, h6, h7⟩

/-- What is taken out, in terms of the mining before it was brought up to date. -/
theorem takenOut_unlocks {now : Nat} {cum : SMap} {m : Mining} {op : LockupPeriod} {ts b x : Nat} (hm : Fine m)
    {wt : Nat} {m2 : Mining} (h : TakenOut now (settle now cum m) op ts b wt m2) (hx : midnight now < x) :
    ∃ cut, Unlocks now m op ts b x wt cut ∧ recordedAt m2.diffs x = recordedAt m.diffs x - cut ∧
      m2.share = m.share - dueBy m.diffs (midnight now) - wt ∧ m2.stakeFromOthers = m.stakeFromOthers ∧
      m2.index = indexBefore cum now ∧ m2.unclaimed = due now cum m ∧ Sorted m2.diffs ∧
      ∀ e ∈ m2.diffs, midnight now < e.1 := by
  have hs := after_sorted hm.1 (midnight now)
  have hmid : midnight now ≤ now := by unfold midnight; omega
  cases h with
  | flat h =>
    refine ⟨0, ?_, by simp only [settle]; rw [recordedAt_after _ hx]; rfl, rfl, rfl, rfl, rfl, hs,
      fun e he => (mem_after.mp he).2⟩
    rcases h with h | ⟨oe, -, h1, h2⟩
    · exact .flex h
    · obtain ⟨k, n, t1, -, -, -, t2, rfl⟩ := terms_end.mp h1
      exact .over t1 t2 h2
  | @locked oe v h ends future recorded enough =>
    obtain ⟨k, n, t1, hk, k1, -, t2, rfl⟩ := terms_end.mp ends
    simp only [settle] at recorded
    have hmem := mem_after.mp (SMap.get_some_mem recorded)
    rw [hk] at enough ⊢
    refine ⟨_, .running t1 h t2 future hmem.1 enough, ?_, rfl, rfl, rfl, rfl, SMap.put_sorted hs _ _, ?_⟩
    · simp only [settle]
      rw [recordedAt_get (SMap.put_sorted hs _ _), SMap.get_put]
      by_cases e : midnight ts + 86400 * n = x
      · rw [if_pos e.symm, if_pos e, recordedAt_get hm.1, ← e, (mem_get hm.1).mp hmem.1]; rfl
      · rw [if_neg (Ne.symm e), if_neg e, ← recordedAt_get hs, recordedAt_after _ hx]; rfl
    · intro e he
      rcases SMap.mem_put he with rfl | he
      · simp only; omega
      · exact (mem_after.mp he).2

theorem unlocks_takenOut {now : Nat} {cum : SMap} {m : Mining} {op : LockupPeriod} {ts b x wt cut : Nat} (hm : Fine m)
    (h : Unlocks now m op ts b x wt cut) (hx : midnight now < x) :
    ∃ m2, TakenOut now (settle now cum m) op ts b wt m2 ∧ recordedAt m2.diffs x = recordedAt m.diffs x - cut ∧
      m2.share = m.share - dueBy m.diffs (midnight now) - wt ∧ m2.stakeFromOthers = m.stakeFromOthers ∧
      m2.index = indexBefore cum now ∧ m2.unclaimed = due now cum m ∧ Sorted m2.diffs ∧
      ∀ e ∈ m2.diffs, midnight now < e.1 := by
  have hs := after_sorted hm.1 (midnight now)
  have hmid : midnight now ≤ now := by unfold midnight; omega
  have hterm : ∀ {k n}, terms op = some (k, n) → op.multiplier = k ∧ 1 ≤ k ∧ 1 ≤ n := by
    intro k n h
    cases op <;> simp [terms] at h <;> obtain ⟨rfl, rfl⟩ := h <;> simp [LockupPeriod.multiplier]
  have flat : ∀ hh, ∃ m2, TakenOut now (settle now cum m) op ts b b m2 ∧ recordedAt m2.diffs x = recordedAt m.diffs x - 0 ∧
      m2.share = m.share - dueBy m.diffs (midnight now) - b ∧ m2.stakeFromOthers = m.stakeFromOthers ∧
      m2.index = indexBefore cum now ∧ m2.unclaimed = due now cum m ∧ Sorted m2.diffs ∧
      ∀ e ∈ m2.diffs, midnight now < e.1 := fun hh => ⟨_, .flat hh, by simp only [settle]; rw [recordedAt_after _ hx]; rfl,
        rfl, rfl, rfl, rfl, hs, fun e he => (mem_after.mp he).2⟩
  cases h with
  | flex h => exact flat (Or.inl h)
  | over h fits past =>
    refine flat ?_
    by_cases e : op = .flex
    · exact Or.inl e
    · obtain ⟨h1, h2, h3⟩ := hterm h
      exact Or.inr ⟨_, e, terms_end.mpr ⟨_, _, h, h1, h2, h3, fits, rfl⟩, past⟩
  | @running k n v h locked fits future recorded enough =>
    obtain ⟨h1, h2, h3⟩ := hterm h
    have hget : SMap.get (settle now cum m).diffs (midnight ts + 86400 * n) = some v :=
      (mem_get hs).mp (mem_after.mpr ⟨recorded, by simp only; omega⟩)
    have ht := TakenOut.locked (now := now) (m := settle now cum m) (b := b) locked
      (terms_end.mpr ⟨_, _, h, h1, h2, h3, fits, rfl⟩) future hget (by rw [h1]; exact enough)
    rw [h1] at ht
    refine ⟨_, ht, ?_, rfl, rfl, rfl, rfl, SMap.put_sorted hs _ _, ?_⟩
    · simp only [settle]
      rw [recordedAt_get (SMap.put_sorted hs _ _), SMap.get_put]
      by_cases e : midnight ts + 86400 * n = x
      · rw [if_pos e.symm, if_pos e, recordedAt_get hm.1, ← e, (mem_get hm.1).mp recorded]; rfl
      · rw [if_neg (Ne.symm e), if_neg e, ← recordedAt_get hs, recordedAt_after _ hx]; rfl
    · intro e he
      rcases SMap.mem_put he with rfl | he
      · simp only; omega
      · exact (mem_after.mp he).2

/-- The second half of extending: the stake put in again. -/
theorem restake_exact {now : Nat} {p : Pool} {m m2 : Mining} {d d3 : Option Mining} {b a k n wt cut tot : Nat}
    (hr : Refreshable now p.cumulative m) (htake : CanTake now p.cumulative (p.totalShare - wt) b d)
    (htot : tot = p.totalShare - wt - if d.isSome then b else 0)
    (hd3 : d3 = d.map fun x => settle now p.cumulative { x with stakeFromOthers := x.stakeFromOthers - b })
    (g1 : recordedAt m2.diffs (midnight now + 86400 * n) = recordedAt m.diffs (midnight now + 86400 * n) - cut)
    (g2 : m2.share = m.share - dueBy m.diffs (midnight now) - wt) (g3 : m2.stakeFromOthers = m.stakeFromOthers)
    (g4 : m2.index = indexBefore p.cumulative now) (g5 : m2.unclaimed = due now p.cumulative m)
    (g6 : ∀ e ∈ m2.diffs, midnight now < e.1) (hwt : dueBy m.diffs (midnight now) + wt ≤ m.share)
    (hpool : wt ≤ p.totalShare) (hba : b + a < 2 ^ 64) :
    DepositOk now { p with totalShare := tot } m2 d3 (b + a) k n ↔ ExtendOk now p m d b a k n wt cut := by
  have hst := hr.stake
  have hre : Refreshable now p.cumulative m2 := by
    rw [refreshable_settled g4 g6, g2, g3, g5]
    exact ⟨by omega, hr.rewards⟩
  have h0 := dueBy_eq_zero g6
  -- the delegate
  have hdel : ∀ x, d = some x → (x.stakeFromOthers - b + (b + a) < 2 ^ 64 ∧
      Refreshable now p.cumulative { settle now p.cumulative { x with stakeFromOthers := x.stakeFromOthers - b } with
        stakeFromOthers := x.stakeFromOthers - b + (b + a) } ↔
      x.share - dueBy x.diffs (midnight now) + x.stakeFromOthers + a < 2 ^ 64) := by
    intro x hx
    obtain ⟨t1, t2, t3⟩ := htake x hx
    rw [refreshable_settled (by rfl) (by intro e he; exact (mem_after.mp he).2)]
    have := t3.rewards
    simp only [settle]
    constructor
    · rintro ⟨h1, h2, h3⟩; omega
    · intro h; exact ⟨by omega, by omega, this⟩
  subst htot hd3
  constructor
  · intro h
    have h1 := h.own
    have h2 := h.ownTable
    rw [g2, h0] at h1
    rw [g1] at h2
    refine ⟨hr, hba, hwt, hpool, htake, h.date, by simpa using h1, h.pool, h2, h.poolTable, ?_⟩
    rintro x rfl
    obtain ⟨t1, t2, t3⟩ := htake x rfl
    obtain ⟨e1, e2, e3⟩ := h.delegate _ rfl
    refine ⟨(hdel x rfl).mp ⟨e1, e3⟩, ?_⟩
    simp only [Option.isSome_some, if_true] at e2
    omega
  · intro h
    refine ⟨hre, h.date, by rw [g2, h0]; simpa using h.newOwn, h.newPool, by rw [g1]; exact h.ownTable, h.poolTable, ?_⟩
    intro y hy
    cases d with
    | none => cases hy
    | some x =>
      cases hy
      obtain ⟨t1, t2, t3⟩ := htake x rfl
      obtain ⟨e1, e2⟩ := h.give x rfl
      obtain ⟨e3, e4⟩ := (hdel x rfl).mpr e1
      refine ⟨e3, ?_, e4⟩
      simp only [Option.isSome_some, if_true]
      omega

theorem extend_exact {caps : Caps} {now : Nat} {p : Pool} {m : Mining} {op np : LockupPeriod} {ts b a : Nat}
    {d : Option Mining} (hc : History p.cumulative) (hp : Sorted p.diffs) (hm : Fine m) (hd : ∀ x, d = some x → Fine x) :
    (∃ r, p.extend caps now m op np ts b a d = .ok r) ↔ ∃ k n wt cut, terms np = some (k, n) ∧
      Unlocks now m op ts b (midnight now + 86400 * n) wt cut ∧ ExtendOk now p m d b a k n wt cut := by
  have hm' : ∀ m1, m.refreshRewards now p.cumulative = .ok m1 → Sorted m1.diffs ∧ m1.share < 2 ^ 64 := by
    intro m1 h
    obtain ⟨h1, rfl⟩ := (refresh_settle hc hm).mp h
    have := h1.stake
    exact ⟨after_sorted hm.1 _, by simp only [settle]; omega⟩
  have hn : ∀ {k n}, terms np = some (k, n) → midnight now < midnight now + 86400 * n := by
    intro k n h
    cases np <;> simp [terms] at h <;> omega
  have hd3 : ∀ {tot}, CanTake now p.cumulative tot b d → ∀ y, (d.map fun x => settle now p.cumulative
      { x with stakeFromOthers := x.stakeFromOthers - b }) = some y → Fine y := by
    intro tot ht y hy
    cases d with
    | none => cases hy
    | some x => cases hy; exact settle_fine (hd x rfl) (ht x rfl).2.2
  rw [extend_iff hm']
  constructor
  · rintro ⟨m1, wt, m2, p3, d3, h1, h2, h3, h4, h5, h6, h7⟩
    obtain ⟨r1, rfl⟩ := (refresh_settle hc hm).mp h1
    have hb := r1.backed
    simp only [settle] at h3
    obtain ⟨h8, rfl, rfl⟩ := (take_exact (by exact hc) hd).mp h6
    simp only at h8 h7
    have hsort : Sorted m2.diffs ∧ m2.unclaimed < 2 ^ 64 := by
      obtain ⟨-, -, -, -, -, -, g5, g6, -⟩ := takenOut_unlocks hm h2 (Nat.lt_succ_self _)
      exact ⟨g6, by rw [g5]; exact r1.rewards⟩
    obtain ⟨k, n, t1, h9⟩ := (deposit_exact (by exact hc) (by exact hp) hsort (hd3 h8)).mp h7
    obtain ⟨cut, u1, g1, g2, g3, g4, g5, -, g6⟩ := takenOut_unlocks hm h2 (hn t1)
    exact ⟨k, n, wt, cut, t1, u1, (restake_exact r1 h8 rfl rfl g1 g2 g3 g4 g5 g6 (by omega) h4 h5).mp h9⟩
  · rintro ⟨k, n, wt, cut, t1, u1, h⟩
    obtain ⟨m2, h2, g1, g2, g3, g4, g5, g7, g6⟩ := unlocks_takenOut (cum := p.cumulative) hm u1 (hn t1)
    have hown := h.own
    refine ⟨_, wt, m2, _, _, (refresh_settle hc hm).mpr ⟨h.refresh, rfl⟩, h2, by simp only [settle]; omega, h.pool, h.amount,
      (take_exact (by exact hc) hd).mpr ⟨h.take, rfl, rfl⟩, ?_⟩
    refine (deposit_exact (by exact hc) (by exact hp) ⟨g7, by rw [g5]; exact h.refresh.rewards⟩ (hd3 h.take)).mpr
      ⟨k, n, t1, ?_⟩
    exact (restake_exact h.refresh h.take rfl rfl g1 g2 g3 g4 g5 g6 (by omega) h.pool h.amount).mpr h

end Verif
