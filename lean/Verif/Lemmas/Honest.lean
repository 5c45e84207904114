import Verif.Lemmas.Ledger
import Verif.Lemmas.Live
import Verif.Spec.Honest
/-!
Honest histories are orderly; what the ledger says about the entries of the tables.
-/

namespace Verif

open Spec

variable {env : Env}

/-! ## Honest operations are orderly -/

theorem own_ge {L : Ledger} {y : StakeEntry} (hy : y ∈ L) (x : Nat) : y.worth x ≤ L.own y.mining x := by
  have := sum_ge (f := fun z : StakeEntry => if z.mining = y.mining then z.worth x else 0) (fun z => by
    by_cases e : z.mining = y.mining
    · simpa [e] using worth_nonneg z x
    · simp [e]) hy
  simpa [Ledger.own] using this

theorem all_ge {L : Ledger} {y : StakeEntry} (hy : y ∈ L) (x : Nat) : y.worth x + y.lent ≤ L.all x := by
  have := sum_ge (f := fun z : StakeEntry => z.worth x + z.lent) (fun z => by
    have h1 := worth_nonneg z x
    have h2 := lent_nonneg z
    omega) hy
  simpa [Ledger.all] using this

/-- A stake in the ledger is not locked away by the others. -/
theorem Booked.unlocked {now : Nat} {w : World} {P : Key} {L : Ledger} (hb : Booked env now w P L) {y : StakeEntry}
    (hy : y ∈ L) {m : Mining} (hm : Member env w P y.mining m) {a : Nat} (ha : a ≤ y.amount) : Unlocked a m := by
  obtain ⟨U, hU⟩ := dueBy_all m.diffs
  have h1 := hb.weight _ m hm (midnight now + U + y.expires) (by omega)
  have h2 := own_ge hy (midnight now + U + y.expires)
  have h3 : y.worth (midnight now + U + y.expires) = y.amount := by
    unfold StakeEntry.worth; rw [if_neg (by omega)]
  unfold weightOn at h1
  rw [hU _ (by omega)] at h1
  unfold Unlocked
  omega

/-- A delegated stake is recorded with the delegate. -/
theorem Booked.lends {now : Nat} {w : World} {P : Key} {L : Ledger} (hb : Booked env now w P L) {y : StakeEntry}
    (hy : y ∈ L) {x : Mining} (hx : Member env w P y.delegate x) (hd : y.delegate ≠ y.mining) :
    y.amount ≤ x.stakeFromOthers := by
  have h1 := hb.lent _ x hx
  have h2 := lentTo_ge hy
  unfold StakeEntry.lent at h2
  rw [if_neg hd] at h2
  omega

theorem flex_of_terms {l : LockupPeriod} {k n : Nat} (hl : terms l = some (k, n)) (hk : k = 1) : l = .flex := by
  cases l <;> simp [terms] at hl <;> first | rfl | omega

theorem Spec.Reports.orderly {P V : Key} {now : Nat} {w w' : World} {accs : List AccountInfo} {i : Ix} {ret : Option Nat}
    {L L' : Ledger} (hw : Wf env now w) (hs : RealSigners accs) (hb : Booked env now w P L)
    (hr : Reports env P now w accs i L L') (hp : PromptIx env P V now w accs i)
    (h : exec env now w accs i = .ok (w', ret)) : OrderlyIx env P V now w accs i := by
  have hmem : ∀ {y : StakeEntry} {rest : Ledger}, L.Perm (y :: rest) → y ∈ L := fun hh => hh.mem_iff.mpr (by simp)
  refine ⟨?_, hp.delegate, hp.oldDelegate, ?_, hp.source⟩
  · intro hP M m p hM hm hpool
    cases hr with
    | @deposit a l o d M' D k n _ pool mining delegate member lockup room =>
      refine ⟨hp.settled hP rfl p hpool, fun k' n' hk' => ?_⟩
      cases lockup.symm.trans hk'
      cases mining.symm.trans hM
      exact room.2 m hm
    | @withdraw a o d y rest _ pool mining delegate held matured enough =>
      obtain ⟨Q, N, A, E, tl, rfl, h2, h3, -⟩ := C20_withdraw hw hs h
      cases pool
      cases mining.symm.trans hM
      obtain ⟨m', hm'⟩ := h2.member
      rw [show N.key = y.mining from by simpa using mining] at hm'
      obtain rfl := MiningAt.unique hm hm'.1
      exact hb.unlocked (hmem held) hm' enough
    | @extend ol nl ts a o d y k n k' n' rest _ pool mining delegate member held matured old times expires new room =>
      obtain ⟨Q, N, A, E, tl, k1, n1, k1', n1', rfl, t1, t2, h2, h3, -⟩ := C22_extend_partial hw hs h
      cases pool
      cases mining.symm.trans hM
      obtain ⟨m', hm'⟩ := h2.member
      rw [show N.key = y.mining from by simpa using mining] at hm'
      obtain rfl := MiningAt.unique hm hm'.1
      refine ⟨hp.settled hP rfl p hpool, hb.unlocked (hmem held) hm' (Nat.le_refl _), ?_, ?_⟩
      · intro k2 n2 hk2
        cases new.symm.trans hk2
        exact room.2 m hm
      · rcases matured with h1 | h1
        · exact Or.inl (flex_of_terms old (times.symm.trans h1))
        · right
          intro k2 n2 hk2
          cases old.symm.trans hk2
          omega
    | @redelegate nd New y rest _ pool mining old new member held => exact hp.settled hP rfl p hpool
    | @slash o n y rest _ pool mining held undelegated matured enough =>
      obtain ⟨A, Q, N, tl, rfl, h2, -⟩ := C21_slash hw hs h
      cases pool
      cases mining.symm.trans hM
      obtain ⟨m', hm'⟩ := h2.member
      rw [show N.key = y.mining from by simpa using mining] at hm'
      obtain rfl := MiningAt.unique hm hm'.1
      exact hb.unlocked (hmem held) hm' enough
    | @slashLocked o n ts y rest _ pool mining held undelegated expires enough =>
      obtain ⟨A, Q, N, tl, rfl, h2, -⟩ := C21_slash hw hs h
      cases pool
      cases mining.symm.trans hM
      obtain ⟨m', hm'⟩ := h2.member
      rw [show N.key = y.mining from by simpa using mining] at hm'
      obtain rfl := MiningAt.unique hm hm'.1
      exact hb.unlocked (hmem held) hm' enough
    | close spent => trivial
    | @service i _ hi =>
      cases i <;> simp only [isService, Bool.false_eq_true] at hi <;> trivial
    | elsewhere pool notClose old => exact absurd hP pool
  · intro hP D hD x hx
    cases hr with
    | redelegate pool => exact absurd pool hP
    | @service i _ hi => cases i <;> simp only [isService, Bool.false_eq_true] at hi <;> cases hD
    | elsewhere pool notClose old => exact old D hD x hx
    | _ => cases hD

/-- An honest history without its failed instructions is orderly. -/
theorem honest_orderly (hi : env.PdaInjective) {P V : Key} (hP0 : P ≠ 0) {s0 s : Chain} {es : List Event} {L : Ledger}
    (hg : Genesis env s0) (hr : HonestRun env P V s0 es s L) :
    ∃ es', RunsWith env (Orderly env P V) s0 es' s ∧
      ∀ k, totalIn env (filledBy env k) s0 es' = totalIn env (filledBy env k) s0 es := by
  have key : ∀ {s0 s : Chain} {L0 L : Ledger} {es : List Event}, LedgerRuns env P s0 L0 es s L → Reachable env s0 →
      Booked env s0.now s0.world P L0 → RunsWith env (Prompt env P V) s0 es s →
      ∃ es', RunsWith env (Orderly env P V) s0 es' s ∧
        ∀ k, totalIn env (filledBy env k) s0 es' = totalIn env (filledBy env k) s0 es := by
    intro s0 s L0 L es hr
    induction hr with
    | nil => intro _ _ _; exact ⟨[], .nil _, fun _ => rfl⟩
    | @cons s s' L L1 L' e es hv hl _ ih =>
      intro h1 h2 h3
      cases h3 with
      | cons _ hc h3 =>
      have hw := reachable_wf h1
      obtain ⟨es', i1, i2⟩ := ih (h1.step hv hl.clean) (apply_booked hi hP0 hv hl hw h2) h3
      have keep : Orderly env P V s e → ∃ es', RunsWith env (Orderly env P V) s es' s' ∧
          ∀ k, totalIn env (filledBy env k) s es' = totalIn env (filledBy env k) s (e :: es) := fun ho =>
        ⟨e :: es', .cons hv ho i1, fun k => by simp only [totalIn, i2]⟩
      cases e with
      | ix accs i =>
        obtain ⟨l1, ⟨⟨⟨w', ret⟩, l2⟩, l3⟩ | ⟨⟨er, l2⟩, l3⟩⟩ := hl
        · exact keep ⟨l1, l3.orderly hw hv h2 (hc ⟨_, l2⟩) l2⟩
        · rw [apply_ix_error l2] at i1 i2
          refine ⟨es', i1, fun k => ?_⟩
          rw [i2, totalIn, apply_ix_error l2, show filledBy env k s (.ix accs i) = 0 by simp [filledBy, succeeded, l2],
            Nat.zero_add]
      | tick d => exact keep trivial
      | gc k => exact keep ⟨hl.2.1, hc⟩
      | ext w' => exact keep hc
  refine key hr.ledger ⟨s0, [], hg, .nil _⟩ ⟨?_, ?_, ?_, nofun, nofun, fun _ => rfl⟩ hr.prompt
  · intro k m hm; have := (hg.owned k hm.1.1).1; rw [hm.1.2] at this; cases this
  · intro k m hm; have := (hg.owned k hm.1.1).1; rw [hm.1.2] at this; cases this
  · intro p hp; have := (hg.owned P hp.1).1; rw [hp.2] at this; cases this

theorem honest_orderly_at (hi : env.PdaInjective) {P V : Key} {s0 s : Chain} {es : List Event} {L : Ledger}
    (hg : Genesis env s0) (hr : HonestRun env P V s0 es s L) {p : Pool} (hp : PoolAt env s.world P p) :
    P ≠ 0 ∧ Booked env s.now s.world P L ∧ ∃ es', RunsWith env (Orderly env P V) s0 es' s ∧
      ∀ k, totalIn env (filledBy env k) s0 es' = totalIn env (filledBy env k) s0 es := by
  have hw : Wf env s.now s.world := reachable_wf ⟨s0, es, hg, hr.ledger.clean⟩
  have hP0 := (hw P).nonzero hp.1
  exact ⟨hP0, ledger_booked hi hP0 hg hr.ledger, honest_orderly hi hP0 hg hr⟩

/-! ## Slashes -/

theorem terms_pos {l : LockupPeriod} {k n : Nat} (h : terms l = some (k, n)) : 1 ≤ k := by
  cases l <;> simp [terms] at h <;> omega

theorem Spec.Reports.times {P : Key} {now : Nat} {w : World} {accs : List AccountInfo} {i : Ix} {L L' : Ledger}
    (hr : Reports env P now w accs i L L') (h : ∀ y ∈ L, 1 ≤ y.times) : ∀ y ∈ L', 1 ≤ y.times := by
  have change : ∀ {y z : StakeEntry} {rest : Ledger}, L.Perm (y :: rest) → 1 ≤ z.times → ∀ x ∈ z :: rest, 1 ≤ x.times := by
    intro y z rest hp hz x hx
    rcases List.mem_cons.mp hx with rfl | hx
    · exact hz
    · exact h x (hp.mem_iff.mpr (by simp [hx]))
  have old : ∀ {y : StakeEntry} {rest : Ledger}, L.Perm (y :: rest) → 1 ≤ y.times := fun hp =>
    h _ (hp.mem_iff.mpr (by simp))
  cases hr with
  | deposit pool mining delegate member lockup room =>
    intro y hy
    rcases List.mem_cons.mp hy with rfl | hy
    · exact terms_pos lockup
    · exact h y hy
  | withdraw pool mining delegate held matured enough => have h1 := old held; exact change held h1
  | extend pool mining delegate member held matured ol times expires new room => exact change held (terms_pos new)
  | redelegate pool mining ol new member held => have h1 := old held; exact change held h1
  | slash pool mining held undelegated matured enough => have h1 := old held; exact change held h1
  | slashLocked pool mining held undelegated expires enough => have h1 := old held; exact change held h1
  | close => exact h
  | service => exact h
  | elsewhere => exact h

theorem Spec.LedgerRuns.times {P : Key} {s0 s : Chain} {es : List Event} {L0 L : Ledger}
    (hr : LedgerRuns env P s0 L0 es s L) : (∀ y ∈ L0, 1 ≤ y.times) → ∀ y ∈ L, 1 ≤ y.times := by
  induction hr with
  | nil => exact id
  | @cons s s' L L1 L' e es hv hl _ ih =>
    intro h
    apply ih
    cases e with
    | ix accs i =>
      obtain ⟨-, ⟨-, h2⟩ | ⟨-, rfl⟩⟩ := hl
      · exact h2.times h
      · exact h
    | tick d => cases hl; exact h
    | gc k => cases hl.1; exact h
    | ext w => cases hl; exact h

/-- What becomes due between two days is recorded in between. -/
theorem dueBy_step {l : SMap} (e : Nat) : dueBy l e ≤ dueBy l (e - 1) + ((l.filter fun z => decide (z.1 = e)).map (·.2)).sum := by
  induction l with
  | nil => simp
  | cons a l ih =>
    rw [dueBy_cons, dueBy_cons, List.filter_cons]
    by_cases h1 : a.1 = e
    · simp only [h1, decide_true, if_true, List.map_cons, List.sum_cons, Nat.le_refl]
      split <;> omega
    · simp only [h1, decide_false, Bool.false_eq_true, if_false]
      split <;> split <;> omega

theorem recorded_get {l : SMap} (hs : Sorted l) (e : Nat) :
    ((l.filter fun z => decide (z.1 = e)).map (·.2)).sum = (l.get e).getD 0 := by
  induction l with
  | nil => rfl
  | cons a l ih =>
    obtain ⟨h1, h2⟩ := sorted_cons.mp hs
    rw [List.filter_cons, SMap.get]
    by_cases h : a.1 = e
    · have : l.filter (fun z => decide (z.1 = e)) = [] := by
        rw [List.filter_eq_nil_iff]
        intro z hz
        have := h1 z hz
        simp; omega
      simp [h, this]
    · rw [if_neg (Ne.symm h)]
      simpa [h] using ih h2

theorem get_after {l : SMap} (hs : Sorted l) {b e : Nat} (h : b < e) : SMap.get (after l b) e = SMap.get l e := by
  have h1 := recorded_get hs e
  cases hg : SMap.get l e with
  | some v => exact SMap.get_of_mem (after_sorted hs b) (by
      unfold after
      exact List.mem_filter.mpr ⟨SMap.get_some_mem hg, by simpa using h⟩)
  | none =>
    cases hg' : SMap.get (after l b) e with
    | none => rfl
    | some v =>
      have := SMap.get_of_mem hs (List.mem_filter.mp (SMap.get_some_mem hg')).1
      rw [hg] at this; cases this

theorem worth_drop {z : StakeEntry} (ht : 1 ≤ z.times) (x : Nat) : z.worth x ≤ z.worth (x - 1) := by
  unfold StakeEntry.worth
  have : (z.amount : Int) ≤ z.amount * z.times := by
    have := Nat.mul_le_mul_left z.amount ht
    rw [Nat.mul_one] at this
    exact_mod_cast this
  split <;> split <;> omega

theorem sum_gap {L : Ledger} {f g : StakeEntry → Int} (h : ∀ z ∈ L, f z ≤ g z) {y : StakeEntry} (hy : y ∈ L) :
    (g y - f y) + (L.map f).sum ≤ (L.map g).sum := by
  have le : ∀ L : Ledger, (∀ z ∈ L, f z ≤ g z) → (L.map f).sum ≤ (L.map g).sum := by
    intro L
    induction L with
    | nil => intro _; simp
    | cons z t ih =>
      intro h
      simp only [List.map_cons, List.sum_cons]
      have h1 := h z (by simp)
      have h2 := ih fun z hz => h z (by simp [hz])
      omega
  induction L with
  | nil => cases hy
  | cons z t ih =>
    simp only [List.map_cons, List.sum_cons]
    have h1 := h z (by simp)
    have h2 := le t fun z hz => h z (by simp [hz])
    rcases List.mem_cons.mp hy with rfl | hy
    · omega
    · have := ih (fun z hz => h z (by simp [hz])) hy
      omega

/-- The bonus of a stake is recorded at its expiry date, with the mining and with the pool. -/
theorem Booked.bonus {now : Nat} {w : World} {P : Key} {L : Ledger} (hb : Booked env now w P L)
    (ht : ∀ y ∈ L, 1 ≤ y.times) {y : StakeEntry} (hy : y ∈ L) (hx : midnight now < y.expires) {m : Mining}
    (hm : Member env w P y.mining m) {p : Pool} (hp : PoolAt env w P p) :
    y.amount * y.times ≤ dueBy m.diffs y.expires - dueBy m.diffs (y.expires - 1) + y.amount ∧
    y.amount * y.times ≤ dueBy p.diffs y.expires - dueBy p.diffs (y.expires - 1) + y.amount := by
  have e1 : y.worth (y.expires - 1) = y.amount * y.times := by unfold StakeEntry.worth; rw [if_pos (by omega)]
  have e2 : y.worth y.expires = y.amount := by unfold StakeEntry.worth; rw [if_neg (by omega)]
  have m1 := hb.weight _ m hm (y.expires - 1) (by omega)
  have m2 := hb.weight _ m hm y.expires (by omega)
  have p1 := hb.total p hp (y.expires - 1) (by omega)
  have p2 := hb.total p hp y.expires (by omega)
  have g1 := sum_gap (L := L) (f := fun z => if z.mining = y.mining then z.worth y.expires else 0)
    (g := fun z => if z.mining = y.mining then z.worth (y.expires - 1) else 0) (fun z hz => by
      by_cases e : z.mining = y.mining
      · simp only [e, if_true]; exact worth_drop (ht z hz) _
      · simp [e]) hy
  have g2 := sum_gap (L := L) (f := fun z => z.worth y.expires + z.lent)
    (g := fun z => z.worth (y.expires - 1) + z.lent) (fun z hz => by
      have := worth_drop (ht z hz) y.expires
      show z.worth y.expires + z.lent ≤ z.worth (y.expires - 1) + z.lent
      omega) hy
  simp only [if_true, e1, e2] at g1 g2
  unfold Ledger.own at m1 m2
  unfold Ledger.all at p1 p2
  unfold weightOn at m1 m2
  unfold totalOn at p1 p2
  have c : ((y.amount * y.times : Nat) : Int) = y.amount * y.times := by simp
  constructor <;> omega

theorem bonus_part {a n k v : Nat} (hk : 2 ≤ k) (hn : 0 < n) (ha : n ≤ a) (h : a * k ≤ v + a) : n * k - n ≤ v ∧ 0 < v := by
  obtain ⟨j, rfl⟩ : ∃ j, k = j + 2 := ⟨k - 2, by omega⟩
  have c3 : n * j ≤ a * j := Nat.mul_le_mul_right _ ha
  rw [Nat.mul_add] at h ⊢
  omega

theorem slash_succeeds {now B n mu : Nat} {p : Pool} {m : Mining} {ex : Option Nat} (h : Takes now p m none B)
    (h1 : (mu : Int) ≤ weightOn m (midnight now)) (h2 : (mu : Int) ≤ totalOn p (midnight now))
    (hex : ∀ ts, ex = some ts → n ≤ mu ∧ midnight now < midnight ts ∧
      (∃ v, m.diffs.get (midnight ts) = some v ∧ mu - n ≤ v) ∧ ∃ v, p.diffs.get (midnight ts) = some v ∧ mu - n ≤ v) :
    ∃ r, p.slash now m n mu ex = .ok r := by
  obtain ⟨m1, r0⟩ := refresh_succeeds h.pool.history h.mining h.small h.bound h.owed
  obtain ⟨r1, -⟩ := refresh_share h.pool.history h.mining r0
  obtain ⟨c1, c2, c3, c4, c5, c6⟩ := refresh_current h.pool.history h.mining.ok h.mining.backed r0
  have hbod := bod_eq_midnight now
  unfold totalOn at h2
  have hw : p.withdraw now m mu none = .ok ({ p with
      totalShare := p.totalShare - mu - dueBy p.diffs (bod now),
      diffs := after p.diffs (bod now) }, { m1 with share := m1.share - mu }, none) := by
    unfold Pool.withdraw
    simp only [res_bind_ok, Prod.exists, safeSub_ok, res_pure_ok, Prod.mk.injEq]
    refine ⟨m1, r0, _, ⟨by omega, rfl⟩, _, ⟨by omega, rfl⟩, _,
      (poolConsume_ok (by exact h.pool.sorted)).mpr ⟨by simp only; rw [hbod]; omega, rfl⟩, _, none,
      withDelegate_none.mpr ⟨rfl, rfl⟩, rfl, rfl, rfl⟩
  unfold Pool.slash
  simp only [res_bind_ok, Prod.exists]
  cases ex with
  | none => exact ⟨_, _, _, _, _, hw, rfl⟩
  | some ts =>
    obtain ⟨g1, g2, ⟨v, g3, g4⟩, v', g5, g6⟩ := hex ts rfl
    have hts := bod_eq_midnight ts
    apply Exists.intro
    apply Exists.intro
    refine ⟨_, _, _, hw, ?_⟩
    simp only [res_bind_ok, safeSub_ok]
    refine ⟨_, ⟨g1, rfl⟩, _, (modifyDiffs_ok c1.ok.sorted).mpr ⟨v, ?_, g4, rfl⟩, _,
      (modifyDiffs_ok (after_sorted h.pool.sorted _)).mpr ⟨v', ?_, g6, rfl⟩, rfl⟩
    · rw [hts, c4, get_after h.mining.ok.sorted g2, g3]
    · rw [hts, hbod, get_after h.pool.sorted g2, g5]

theorem slash_exec {now : Nat} {w : World} (hw : Wf env now w) {accs : List AccountInfo} {A P M : AccountInfo}
    {rest : List AccountInfo} {p p' : Pool} {m m' : Mining} {owner : Key} {n mu : Nat} {ex : Option Nat}
    (h : SlashReady env w accs A P M rest p m owner) (hd : p.slash now m n mu ex = .ok (p', m')) :
    exec env now w accs (.slash owner n mu ex) = .ok (putMining env (putPool w P.key p') M.key m', none) := by
  have hP0 := (hw P.key).nonzero h.pool.1
  have gp := poolAt_good hw h.pool
  have hMP : M.key ≠ P.key := by
    intro e; have := h.mining.1; rw [e] at this; exact PoolAt.not_mining h.pool this
  obtain ⟨m1, m2⟩ := member_addr hw h.mining hP0
  have hacc := h.accs_eq
  refine exec_ok.mpr ⟨?_, ?_⟩
  · subst hacc
    simp only [process, processSlash, res_bind_ok, nextWithOwner_ok, nextSigner_ok, ensure_ok, getPoolAndMining_ok,
      res_pure_ok, Prod.exists]
    exact ⟨_, ⟨A, _, ⟨rfl, h.authority.2⟩, P, _, ⟨rfl, h.pool.1⟩, M, rest, ⟨rfl, h.mining.1.1⟩, (), hMP, p, m,
      ⟨m1, by rw [h.mining.1.2]; rfl, Nat.le_of_eq gp.len.symm, by rw [h.pool.2]; rfl, by rw [h.owner]; exact m2,
        h.authority.1, h.mining.2, h.owner.symm⟩, p', m', hd, rfl⟩, rfl⟩
  · intro a ha hro
    rw [putMining_ne _ _ (fun e => ?_), putPool_ne _ _ (fun e => ?_)]
    · have := h.writable a ha (Or.inl e); rw [hro] at this; cases this
    · have := h.writable a ha (Or.inr e); rw [hro] at this; cases this

end Verif
