import Verif.Spec.Slots
import Verif.Lemmas.Credited
import Verif.Lemmas.Life
import Verif.Lemmas.Order
import Verif.Lemmas.Recorded
/-!
The table of a mining grows by at most one entry for every stake begun or extended (C129).
-/

namespace Verif

open Spec

variable {env : Env}

theorem refresh_length {now : Nat} {cum : SMap} (hc : History cum) {m m' : Mining} (hm : MiningOk m)
    (h : m.refreshRewards now cum = .ok m') : m'.diffs.length ≤ m.diffs.length := by
  obtain ⟨c, rfl, -⟩ := refresh_ok hc hm.sorted h
  exact List.length_filter_le _ _

theorem refresh_length' {now : Nat} {cum : SMap} (hc : History cum) {m m' : Mining} (hm : MiningOk m) (sfo : Nat)
    (h : ({ m with stakeFromOthers := sfo } : Mining).refreshRewards now cum = .ok m') :
    m'.diffs.length ≤ m.diffs.length :=
  refresh_length hc (m := { m with stakeFromOthers := sfo }) ⟨hm.1, hm.2⟩ h

theorem addAt_length (cap : Nat) (D : SMap) (k v : Nat) : (addAt cap D k v).length ≤ D.length + 1 := by
  unfold addAt SMap.insert
  split
  · exact put_le_length ..
  · exact Nat.le_succ _

theorem deposit_table {caps : Caps} {now : Nat} {p p' : Pool} {m m' : Mining} {a : Nat} {per : LockupPeriod}
    {d d' : Option Mining} (hp : PoolOk now p) (hm : MiningOk m) (h : p.deposit caps now m a per d = .ok (p', m', d')) :
    m'.diffs.length ≤ m.diffs.length + 1 := by
  obtain ⟨m1, e, h1, -, -, -, -, -, -, -, rfl, -⟩ := deposit_ok (refresh_sorted hp hm) h
  have := refresh_length hp.history hm h1
  have := addAt_length caps.mining m1.diffs e (a * per.multiplier - a)
  show (addAt _ _ _ _).length ≤ _
  omega

/-- Replacing the value of an existing date keeps the dates. -/
theorem put_get_keys {l : SMap} (hs : Sorted l) {k v o : Nat} (h : SMap.get l k = some o) :
    (SMap.put l k v).map (·.1) = l.map (·.1) := by
  induction l with
  | nil => cases h
  | cons y l ih =>
    obtain ⟨k', v'⟩ := y
    rw [sorted_cons] at hs
    unfold SMap.put
    by_cases h1 : k < k'
    · have := SMap.get_some_mem h
      rcases List.mem_cons.mp this with h2 | h2
      · cases h2; omega
      · have := hs.1 _ h2; simp only at this; omega
    · by_cases h2 : k = k'
      · simp [h2]
      · simp only [SMap.get, if_neg h2] at h
        simp only [if_neg h1, if_neg h2, List.map_cons, ih hs.2 h]

/-- An extension ends with a deposit of the whole stake, with the pool's table as it was before. -/
theorem extend_deposits {caps : Caps} {now : Nat} {p p' : Pool} {m m' : Mining} {op np : LockupPeriod} {ts b a : Nat}
    {d d' : Option Mining} (hp : PoolOk now p) (hm : MiningOk m)
    (h : p.extend caps now m op np ts b a d = .ok (p', m', d')) :
    ∃ m1 m2 t d3, m.refreshRewards now p.cumulative = .ok m1 ∧ MiningOk m2 ∧ m2.diffs.map (·.1) = m1.diffs.map (·.1) ∧
      ({ p with totalShare := t } : Pool).deposit caps now m2 (b + a) np d3 = .ok (p', m', d') := by
  obtain ⟨m1, oe, p2, m2, p3, d3, h1, -, h3, -, h5, h6⟩ := extend_ok (refresh_sorted hp hm) h
  have g1 := (refresh_same hp.history hm h1).2.1
  have hpm : (∃ t, p2 = { p with totalShare := t }) ∧ MiningOk m2 ∧ m2.diffs.map (·.1) = m1.diffs.map (·.1) := by
    rcases h3 with ⟨_, _, _, ⟨old, k1, k2, rfl⟩, k3, k4, rfl⟩ | ⟨_, k3, k4, rfl, rfl⟩
    · exact ⟨⟨_, rfl⟩, ⟨SMap.put_sorted g1.sorted _ _, put_aligned g1.aligned k1⟩, put_get_keys g1.sorted k1⟩
    · exact ⟨⟨_, rfl⟩, ⟨g1.1, g1.2⟩, rfl⟩
  obtain ⟨⟨t, rfl⟩, hm2, hl⟩ := hpm
  have hp3 : ∃ t', p3 = { p with totalShare := t' } := by
    cases d with
    | none => rw [withDelegate_none] at h5; obtain ⟨rfl, -⟩ := h5; exact ⟨t, rfl⟩
    | some x =>
      rw [withDelegate_some] at h5
      obtain ⟨y, h5, -⟩ := h5
      rw [delegateSub_ok] at h5
      exact ⟨_, h5.2.2.2⟩
  obtain ⟨t', rfl⟩ := hp3
  exact ⟨m1, m2, t', d3, h1, hm2, hl, h6⟩

theorem extend_length {caps : Caps} {now : Nat} {p p' : Pool} {m m' : Mining} {op np : LockupPeriod} {ts b a : Nat}
    {d d' : Option Mining} (hp : PoolOk now p) (hm : MiningOk m)
    (h : p.extend caps now m op np ts b a d = .ok (p', m', d')) : m'.diffs.length ≤ m.diffs.length + 1 := by
  obtain ⟨m1, m2, t, d3, h1, hm2, hk, h6⟩ := extend_deposits hp hm h
  have hl : m2.diffs.length = m1.diffs.length := by simpa using congrArg List.length hk
  have := refresh_length hp.history hm h1
  have := deposit_table (hp.withDiffs (t := t) (D := p.diffs) hp.sorted hp.aligned) hm2 h6
  omega

/-- An extension records the new end of the lockup, in the pool and in the mining. -/
theorem extend_recorded {caps : Caps} {now : Nat} {p p' : Pool} {m m' : Mining} {op np : LockupPeriod} {ts b a : Nat}
    {d d' : Option Mining} (hp : PoolOk now p) (hm : MiningOk m)
    (h : p.extend caps now m op np ts b a d = .ok (p', m', d')) :
    ∃ c n, terms np = some (c, n) ∧
      (HasRoom caps.pool p.diffs (midnight now + 86400 * n) →
        recordedAt p'.diffs (midnight now + 86400 * n) =
          recordedAt p.diffs (midnight now + 86400 * n) + ((b + a) * c - (b + a)) ∧
        ∃ x ∈ p'.diffs, x.1 = midnight now + 86400 * n) ∧
      ((laterThan m.diffs (midnight now)).length < caps.mining →
        (b + a) * c - (b + a) ≤ recordedAt m'.diffs (midnight now + 86400 * n) ∧
        ∃ x ∈ m'.diffs, x.1 = midnight now + 86400 * n) := by
  obtain ⟨m1, m2, t, d3, h1, hm2, hk, h6⟩ := extend_deposits hp hm h
  have hl : m2.diffs.length = m1.diffs.length := by simpa using congrArg List.length hk
  obtain ⟨c, n, g1, g2, g3⟩ := deposit_recorded (hp.withDiffs (t := t) (D := p.diffs) hp.sorted hp.aligned) hm2 h6
  refine ⟨c, n, g1, g2, fun hr => ?_⟩
  have g4 : m1.diffs = laterThan m.diffs (midnight now) := by
    rw [(refresh_weight hp.history hm h1).2.1, laterThan_eq, bod_eq_midnight]
  rw [← g4] at hr
  have : (laterThan m2.diffs (midnight now)).length ≤ m2.diffs.length := List.length_filter_le _ _
  obtain ⟨g5, g6⟩ := g3 (Or.inr (by omega))
  exact ⟨by omega, g6⟩

theorem StakeOp.table {caps : Caps} {now : Nat} {p p' : Pool} {m m' : Mining} {d d' : Option Mining} {i : Ix}
    (hp : PoolOk now p) (hm : MiningOk m) (h : StakeOp caps now p m d p' m' d' i) {accs : List AccountInfo} {k : Key}
    (hk : miningArg accs i = some k) : m'.diffs.length ≤ m.diffs.length + beginsStake accs k i := by
  cases i with
  | depositMining a l o dl =>
    have e : beginsStake accs k (.depositMining a l o dl) = 1 := if_pos hk
    rw [e]
    exact deposit_table hp hm h
  | withdrawMining a o dl =>
    obtain ⟨m1, h1, -, -, rfl, -⟩ := withdraw_ok hp.sorted h
    have := refresh_length hp.history hm h1
    exact this
  | extendStake ol nl ts b a o dl =>
    have e : beginsStake accs k (.extendStake ol nl ts b a o dl) = 1 := if_pos hk
    rw [e]
    exact extend_length hp hm h
  | slash o n mu ex =>
    obtain ⟨m1, h1, -, -, h4⟩ := slash_ok hp.sorted (refresh_sorted hp hm) h.1
    have g1 := refresh_length hp.history hm h1
    rcases h4 with ⟨-, rfl, -⟩ | ⟨ts, om, op, -, -, k2, -, -, -, rfl, -⟩
    · exact g1
    · show (SMap.put _ _ _).length ≤ _
      rw [put_get_length (refresh_sorted hp hm m1 h1) k2]; exact g1
  | _ => exact h.elim

theorem StakeOp.delegateTable {caps : Caps} {now : Nat} {p p' : Pool} {m m' x x' : Mining} {i : Ix} (hp : PoolOk now p)
    (hm : MiningOk m) (hx : MiningOk x) (h : StakeOp caps now p m (some x) p' m' (some x') i) :
    x'.diffs.length ≤ x.diffs.length := by
  cases i with
  | depositMining a l o dl =>
    obtain ⟨y, q, q', e1, e2, e3⟩ := (deposit_credit hp hm h).2 x rfl
    cases e1
    rw [delegateAdd_ok, e2] at e3
    exact refresh_length' hp.history hx _ e3.2.2.1
  | withdrawMining a o dl =>
    obtain ⟨y, q, q', e1, e2, e3⟩ := (withdraw_credit hp h).2 x rfl
    cases e1
    rw [delegateSub_ok, e2] at e3
    exact refresh_length' hp.history hx _ e3.2.2.1
  | extendStake ol nl ts b a o dl =>
    obtain ⟨x1, y, q, q', r, r', e1, e2, e3, e4, e5⟩ := (extend_credit hp hm (by rintro _ ⟨⟩; exact hx) h).2 x rfl
    cases e1
    rw [delegateSub_ok, e2] at e4
    rw [delegateAdd_ok, e3] at e5
    have g1 := refresh_length' hp.history hx _ e4.2.2.1
    have g2 := refresh_length' hp.history (refresh_grows' hp.history hx _ e4.2.2.1).2 _ e5.2.2.1
    omega
  | slash o n mu ex => obtain ⟨-, h, -⟩ := h; cases h
  | _ => exact h.elim

/-- What an instruction makes of the number of entries in the table of the mining at `k`. -/
theorem Step.table {now : Nat} {w w' : World} {accs : List AccountInfo} {i : Ix} {ret : Option Nat}
    (h : Step env now w w' accs i ret) {k : Key} {m : Mining} (hm : MiningAt env w k m) (ht : m.accountType = 2) :
    (∃ m', MiningAt env w' k m' ∧ SameMining m m' ∧ (w' k).lamports = (w k).lamports ∧
      m'.diffs.length ≤ m.diffs.length + beginsStake accs k i) ∨
    (i = .closeMining ∧ miningArg accs i = some k) := by
  have tok : ∀ j, (w j).owner = env.tokenProgram → k ≠ j := by
    rintro j hj rfl; exact env.program_ne_token (hm.1.symm.trans hj)
  have sys : ∀ j, (w j).owner = env.systemProgram → k ≠ j := by
    rintro j hj rfl; exact env.program_ne_system (hm.1.symm.trans hj)
  have idle : w' k = w k → ∃ m', MiningAt env w' k m' ∧ SameMining m m' ∧ (w' k).lamports = (w k).lamports ∧
      m'.diffs.length ≤ m.diffs.length + beginsStake accs k i :=
    fun e => ⟨m, (miningAt_congr e).mpr hm, .refl m, by rw [e], Nat.le_add_right _ _⟩
  cases h with
  | @stake _ P1 M A D q q' m1 m1' d d' accs_eq op chk del quiet same sfo ok' sameDel eff shell =>
    left
    obtain ⟨-, a2, -⟩ := accs_eq.pool ⟨_, _, _, _, _, _, _, _, op⟩
    rcases eff.minings hm with ⟨rfl, rfl, h1⟩ | ⟨h1, h0, rfl, y', rfl, h2⟩ | ⟨n1, n2, h1⟩
    · exact ⟨_, h1, same, (shell _).2.1, op.table chk.good.ok chk.miningOk a2⟩
    · exact ⟨_, h2, sameDel.1, (shell _).2.1,
        Nat.le_trans (op.delegateTable chk.good.ok chk.miningOk (del _ rfl).ok) (Nat.le_add_right _ _)⟩
    · exact idle (eff.frame k (by rintro rfl; exact PoolAt.not_mining eff.pool hm) n1 n2)
  | @redelegate a nd P1 M A O Old New rest q q' m1 m1' od od' dn dn' accs_eq signed op chk newDel oldOk oldAt ne quiet same sfo
      ok' sameNew sameOld neP eff shell =>
    left
    have hop := op
    rw [changeDelegate_ok] at hop
    by_cases hk : k = M.key
    · subst hk
      obtain rfl := MiningAt.unique hm eff.mining
      exact ⟨_, eff.mining', same, (shell _).2.1, refresh_length chk.good.ok.history chk.miningOk hop.1⟩
    · obtain ⟨-, hod, hdn⟩ := redelegate_credit op
      by_cases hk2 : k = Old.key
      · subst hk2
        obtain ⟨rfl, x', rfl, h4⟩ := eff.old.at hk hm
        obtain ⟨y, r, r', e1, e2, e3⟩ := hod _ rfl
        cases e1
        rw [delegateSub_ok, e2] at e3
        exact ⟨_, h4, sameOld.1, (shell _).2.1, refresh_length' chk.good.ok.history (oldOk _ rfl) _ e3.2.2.1⟩
      · by_cases hk3 : k = New.key
        · subst hk3
          obtain ⟨rfl, x', rfl, h4⟩ := eff.new.at hk hm
          obtain ⟨y, r, r', e1, e2, e3⟩ := hdn _ rfl
          cases e1
          rw [delegateAdd_ok, e2] at e3
          exact ⟨_, h4, sameNew.1, (shell _).2.1, refresh_length' chk.good.ok.history (newDel _ rfl).ok _ e3.2.2.1⟩
        · exact idle (eff.frame k (by rintro rfl; exact PoolAt.not_mining eff.pool hm) hk hk2 hk3)
  | @decrease o n A P1 M rest q m1 m1' accs_eq chk pool op mining mining' same ok' sfo frame shell =>
    left
    by_cases hk : k = M.key
    · subst hk
      obtain rfl := MiningAt.unique hm mining
      refine ⟨_, mining', same, (shell _).2.1, ?_⟩
      rw [decreaseRewards_ok] at op
      rcases op with ⟨_, rfl⟩ | ⟨_, _, rfl⟩
      · exact Nat.le_refl _
      · have := congrArg List.length (decrease_keys n m.diffs)
        simp only [List.length_map] at this
        exact Nat.le_of_eq this
    · exact idle (frame k hk)
  | @claim P1 T V M O A U K rest q m1 m2 n accs_eq signedO signedA eff =>
    left
    obtain ⟨t, htok, -⟩ := eff.userTok
    by_cases hk : k = M.key
    · subst hk
      obtain rfl := MiningAt.unique hm eff.mining
      obtain ⟨s, -⟩ := refresh_same eff.good.ok.history eff.miningOk eff.refreshed
      have g := refresh_length eff.good.ok.history eff.miningOk eff.refreshed
      exact ⟨_, eff.mining', ⟨s.1, s.2, s.3, s.4, s.5⟩, eff.lamports, g⟩
    · exact idle (eff.frame k hk (tok _ eff.vaultTok) (tok _ htok.1))
  | distribute _ _ _ _ pool _ _ _ _ _ frame =>
    exact Or.inl (idle (frame k (by rintro rfl; exact PoolAt.not_mining pool hm)))
  | @fill r e P1 T V F S K rest q w1 accs_eq signed auth good pool vault nonzero future later endBound bound pool' w1_frame
      transfer frame neS neV shell =>
    left
    obtain ⟨t, t', ht1, -⟩ := transfer.srcTok
    obtain ⟨u, u', hu, -⟩ := transfer.dstTok
    refine idle (frame k (by rintro rfl; exact PoolAt.not_mining pool hm) (tok _ ?_) (tok _ ?_))
    · rw [← w1_frame _ neS]; exact ht1.1
    · rw [← w1_frame _ neV]; exact hu.1
  | @close M O G A P1 rest q m1 m2 accs_eq signedO signedA good pool auth mining init miningOk owner refreshed sfo paid target
      closed credited frame ne neG =>
    have a2 : miningArg accs .closeMining = some M.key := by rw [accs_eq]; rfl
    by_cases hk : k = M.key
    · subst hk
      exact Or.inr ⟨rfl, a2⟩
    · exact Or.inl (idle (frame k hk (sys _ target)))
  | @initPool f d P1 T V Y A R K S rest bump accs_eq signedY signedA owned len fresh notPda vault pool' vaultBefore vault'
      payer payer' frame =>
    left
    refine idle (frame k ?_ (sys _ vaultBefore.2.2) (sys _ payer.2.1))
    rintro rfl
    rcases fresh with h1 | ⟨m', h1, h2⟩
    · rw [hm.2] at h1; cases h1
    · rw [hm.2] at h1; cases h1; exact absurd (ht.symm.trans h2.type) (by decide)
  | initMining _ _ _ _ before _ payer _ frame =>
    exact Or.inl (idle (frame k (sys _ before.2.2) (sys _ payer.2.1)))

/-- The same for an event. -/
theorem apply_table {s : Chain} (hw : Wf env s.now s.world) {e : Event} (hv : e.Valid env s) {k : Key}
    (hc : KeepsOpen env k s e) {m : Mining} (hm : MiningAt env s.world k m) (ht : m.accountType = 2)
    (hl : 0 < (s.world k).lamports) :
    ∃ m', MiningAt env (s.apply env e).world k m' ∧ SameMining m m' ∧ 0 < ((s.apply env e).world k).lamports ∧
      m'.diffs.length ≤ m.diffs.length + stakesBegun env k s e := by
  cases e with
  | ix accs i =>
    cases hx : exec env s.now s.world accs i with
    | error er =>
      rw [apply_ix_error hx]
      exact ⟨m, hm, .refl m, hl, Nat.le_add_right _ _⟩
    | ok r =>
      obtain ⟨w', ret⟩ := r
      rw [apply_ix_ok hx]
      have e1 : stakesBegun env k s (.ix accs i) = beginsStake accs k i := by simp [stakesBegun, succeeded, hx]
      rw [e1]
      rcases (step_of_exec hw hv hc.1 hx).table hm ht with ⟨m', g1, g2, g3, g4⟩ | ⟨rfl, g1⟩
      · exact ⟨m', g1, g2, by show 0 < (w' k).lamports; rw [g3]; exact hl, g4⟩
      · exact absurd g1 (hc.2 _ rfl)
  | tick d => exact ⟨m, hm, .refl m, hl, Nat.le_add_right _ _⟩
  | gc j =>
    have hne : k ≠ j := by rintro rfl; exact absurd (show (s.world k).lamports = 0 from hv) (by omega)
    have e1 : (s.apply env (.gc j)).world k = s.world k := world_set_ne _ _ hne
    exact ⟨m, (miningAt_congr e1).mpr hm, .refl m, by rw [e1]; exact hl, Nat.le_add_right _ _⟩
  | ext w' =>
    obtain ⟨e1, -, e3, e4⟩ := hv.program_owned k hm.1
    exact ⟨m, ⟨e1.trans hm.1, e3.trans hm.2⟩, .refl m, Nat.lt_of_lt_of_le hl e4, Nat.le_add_right _ _⟩

theorem runs_table {k : Key} {s s' : Chain} {es : List Event} (hr : RunsWith env (KeepsOpen env k) s es s') :
    ∀ {m : Mining}, Wf env s.now s.world → MiningAt env s.world k m → m.accountType = 2 → 0 < (s.world k).lamports →
    ∃ m', MiningAt env s'.world k m' ∧ SameMining m m' ∧
      m'.diffs.length ≤ m.diffs.length + totalIn env (stakesBegun env k) s es := by
  induction hr with
  | nil s => exact fun _ hm _ _ => ⟨_, hm, .refl _, Nat.le_add_right _ _⟩
  | cons hv hc _ ih =>
    intro m hw hm ht hl
    obtain ⟨m1, h1, h2, h3, h4⟩ := apply_table hw hv hc hm ht hl
    obtain ⟨m2, g1, g2, g3⟩ := ih (wf_apply hw hv hc.1) h1 (h2.accountType.trans ht) h3
    simp only [totalIn]
    exact ⟨m2, g1, h2.trans g2, by omega⟩

end Verif
