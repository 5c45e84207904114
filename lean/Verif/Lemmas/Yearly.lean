import Verif.Lemmas.Slots
import Verif.Lemmas.Tables
/-!
How many expirations later than a given date the table of a mining holds (C130).
-/

namespace Verif

open Spec

variable {env : Env}

/-- Number of dates later than `b` in a table. -/
def lateCount (b : Nat) (l : SMap) : Nat := ((l.map (·.1)).filter fun x => decide (b < x)).length

theorem late_eq (b : Nat) (l : SMap) : lateCount b l = (laterThan l b).length := by
  unfold lateCount laterThan
  rw [List.filter_map, List.length_map]
  rfl

theorem late_keys {b : Nat} {l l' : SMap} (h : l.map (·.1) = l'.map (·.1)) : lateCount b l = lateCount b l' := by
  unfold lateCount; rw [h]

theorem late_filter (b : Nat) (l : SMap) (f : Nat × Nat → Bool) : lateCount b (l.filter f) ≤ lateCount b l :=
  ((List.filter_sublist.map _).filter _).length_le

theorem late_mono {b b' : Nat} (h : b ≤ b') (l : SMap) : lateCount b' l ≤ lateCount b l := by
  rw [late_eq, late_eq]
  unfold laterThan
  rw [← List.countP_eq_length_filter, ← List.countP_eq_length_filter]
  refine List.countP_mono_left fun e _ he => ?_
  simp only [decide_eq_true_eq] at he ⊢
  omega

/-- 1 if a date is later than `b`. -/
def isLate (b x : Nat) : Nat := if b < x then 1 else 0

theorem late_cons (b : Nat) (x : Nat × Nat) (l : SMap) : lateCount b (x :: l) = isLate b x.1 + lateCount b l := by
  unfold lateCount isLate
  by_cases h : b < x.1
  · simp [h]; omega
  · simp [h]

theorem late_put (b : Nat) (l : SMap) (k v : Nat) : lateCount b (l.put k v) ≤ lateCount b l + isLate b k := by
  induction l with
  | nil => simp only [SMap.put, late_cons]; omega
  | cons y l ih =>
    obtain ⟨k', v'⟩ := y
    unfold SMap.put
    split
    · simp only [late_cons]; omega
    · split
      · next h => subst h; simp only [late_cons]; omega
      · simp only [late_cons]; omega

theorem late_put_get {b : Nat} {l : SMap} (hs : Sorted l) {k v o : Nat} (h : SMap.get l k = some o) :
    lateCount b (SMap.put l k v) = lateCount b l := late_keys (put_get_keys hs h)

theorem late_addAt (b cap : Nat) (l : SMap) (k v : Nat) : lateCount b (addAt cap l k v) ≤ lateCount b l + isLate b k := by
  unfold addAt SMap.insert
  split
  · exact late_put ..
  · exact Nat.le_add_right _ _

/-- Stakes begun whose end may be later than `b`. -/
def lateBegun (b now : Nat) (accs : List AccountInfo) (k : Key) (i : Ix) : Nat :=
  if midnight now + 86400 * 365 ≤ b then 0 else beginsStake accs k i

/-- The bound for one lock that begins now. -/
def lateLock (b now : Nat) : Nat := if midnight now + 86400 * 365 ≤ b then 0 else 1

theorem isLate_le {b now x : Nat} (h : x ≤ midnight now + 86400 * 365) : isLate b x ≤ lateLock b now := by
  unfold isLate lateLock
  split
  · rw [if_neg (by omega)]; exact Nat.le_refl _
  · exact Nat.zero_le _

variable {cut : Nat}

theorem refresh_late {now : Nat} {cum : SMap} (hc : History cum) {m m' : Mining} (hm : MiningOk m)
    (h : m.refreshRewards now cum = .ok m') : lateCount cut m'.diffs ≤ lateCount cut m.diffs := by
  obtain ⟨c, rfl, -⟩ := refresh_ok hc hm.sorted h
  exact late_filter ..

theorem refresh_late' {now : Nat} {cum : SMap} (hc : History cum) {m m' : Mining} (hm : MiningOk m) (sfo : Nat)
    (h : ({ m with stakeFromOthers := sfo } : Mining).refreshRewards now cum = .ok m') :
    lateCount cut m'.diffs ≤ lateCount cut m.diffs :=
  refresh_late hc (m := { m with stakeFromOthers := sfo }) ⟨hm.1, hm.2⟩ h

theorem deposit_late {caps : Caps} {now : Nat} {p p' : Pool} {m m' : Mining} {a : Nat} {per : LockupPeriod}
    {d d' : Option Mining} (hp : PoolOk now p) (hm : MiningOk m) (h : p.deposit caps now m a per d = .ok (p', m', d')) :
    lateCount cut m'.diffs ≤ lateCount cut m.diffs + lateLock cut now := by
  obtain ⟨m1, e, h1, h2, -, -, -, -, -, -, rfl, -⟩ := deposit_ok (refresh_sorted hp hm) h
  have := refresh_late (cut := cut) hp.history hm h1
  have := late_addAt cut caps.mining m1.diffs e (a * per.multiplier - a)
  have := isLate_le (b := cut) (newDate_bounds h2).2
  show lateCount cut (addAt _ _ _ _) ≤ _
  omega

theorem extend_late {caps : Caps} {now : Nat} {p p' : Pool} {m m' : Mining} {op np : LockupPeriod} {ts b a : Nat}
    {d d' : Option Mining} (hp : PoolOk now p) (hm : MiningOk m)
    (h : p.extend caps now m op np ts b a d = .ok (p', m', d')) : lateCount cut m'.diffs ≤ lateCount cut m.diffs + lateLock cut now := by
  obtain ⟨m1, m2, t, d3, h1, hm2, hk, h6⟩ := extend_deposits hp hm h
  have hl := late_keys (b := cut) hk
  have := refresh_late (cut := cut) hp.history hm h1
  have := deposit_late (cut := cut) (hp.withDiffs (t := t) (D := p.diffs) hp.sorted hp.aligned) hm2 h6
  omega

theorem StakeOp.fewLate {caps : Caps} {now : Nat} {p p' : Pool} {m m' : Mining} {d d' : Option Mining} {i : Ix}
    (hp : PoolOk now p) (hm : MiningOk m) (h : StakeOp caps now p m d p' m' d' i) {accs : List AccountInfo} {k : Key}
    (hk : miningArg accs i = some k) : lateCount cut m'.diffs ≤ lateCount cut m.diffs + lateBegun cut now accs k i := by
  cases i with
  | depositMining a l o dl =>
    have e : lateBegun cut now accs k (.depositMining a l o dl) = lateLock cut now := by
      have : beginsStake accs k (.depositMining a l o dl) = 1 := if_pos hk
      unfold lateBegun lateLock
      rw [this]
    rw [e]
    exact deposit_late hp hm h
  | withdrawMining a o dl =>
    obtain ⟨m1, h1, -, -, rfl, -⟩ := withdraw_ok hp.sorted h
    have := refresh_late (cut := cut) hp.history hm h1
    exact Nat.le_add_right_of_le this
  | extendStake ol nl ts b a o dl =>
    have e : lateBegun cut now accs k (.extendStake ol nl ts b a o dl) = lateLock cut now := by
      have : beginsStake accs k (.extendStake ol nl ts b a o dl) = 1 := if_pos hk
      unfold lateBegun lateLock
      rw [this]
    rw [e]
    exact extend_late hp hm h
  | slash o n mu ex =>
    obtain ⟨m1, h1, -, -, h4⟩ := slash_ok hp.sorted (refresh_sorted hp hm) h.1
    have g1 := refresh_late (cut := cut) hp.history hm h1
    rcases h4 with ⟨-, rfl, -⟩ | ⟨ts, om, op, -, -, k2, -, -, -, rfl, -⟩
    · exact Nat.le_add_right_of_le g1
    · show lateCount cut (SMap.put _ _ _) ≤ _
      rw [late_put_get (refresh_sorted hp hm m1 h1) k2]; exact Nat.le_add_right_of_le g1
  | _ => exact h.elim

theorem StakeOp.delegateFewLate {caps : Caps} {now : Nat} {p p' : Pool} {m m' x x' : Mining} {i : Ix} (hp : PoolOk now p)
    (hm : MiningOk m) (hx : MiningOk x) (h : StakeOp caps now p m (some x) p' m' (some x') i) :
    lateCount cut x'.diffs ≤ lateCount cut x.diffs := by
  cases i with
  | depositMining a l o dl =>
    obtain ⟨y, q, q', e1, e2, e3⟩ := (deposit_credit hp hm h).2 x rfl
    cases e1
    rw [delegateAdd_ok, e2] at e3
    exact refresh_late' hp.history hx _ e3.2.2.1
  | withdrawMining a o dl =>
    obtain ⟨y, q, q', e1, e2, e3⟩ := (withdraw_credit hp h).2 x rfl
    cases e1
    rw [delegateSub_ok, e2] at e3
    exact refresh_late' hp.history hx _ e3.2.2.1
  | extendStake ol nl ts b a o dl =>
    obtain ⟨x1, y, q, q', r, r', e1, e2, e3, e4, e5⟩ := (extend_credit hp hm (by rintro _ ⟨⟩; exact hx) h).2 x rfl
    cases e1
    rw [delegateSub_ok, e2] at e4
    rw [delegateAdd_ok, e3] at e5
    have g1 := refresh_late' (cut := cut) hp.history hx _ e4.2.2.1
    have g2 := refresh_late' (cut := cut) hp.history (refresh_grows' hp.history hx _ e4.2.2.1).2 _ e5.2.2.1
    omega
  | slash o n mu ex => obtain ⟨-, h, -⟩ := h; cases h
  | _ => exact h.elim

/-- What an instruction makes of the number of entries in the table of the mining at `k`. -/
theorem Step.fewLate {now : Nat} {w w' : World} {accs : List AccountInfo} {i : Ix} {ret : Option Nat}
    (h : Step env now w w' accs i ret) {k : Key} {m : Mining} (hm : MiningAt env w k m) (ht : m.accountType = 2) :
    (∃ m', MiningAt env w' k m' ∧ SameMining m m' ∧ (w' k).lamports = (w k).lamports ∧
      lateCount cut m'.diffs ≤ lateCount cut m.diffs + lateBegun cut now accs k i) ∨
    (i = .closeMining ∧ miningArg accs i = some k) := by
  have tok : ∀ j, (w j).owner = env.tokenProgram → k ≠ j := by
    rintro j hj rfl; exact env.program_ne_token (hm.1.symm.trans hj)
  have sys : ∀ j, (w j).owner = env.systemProgram → k ≠ j := by
    rintro j hj rfl; exact env.program_ne_system (hm.1.symm.trans hj)
  have idle : w' k = w k → ∃ m', MiningAt env w' k m' ∧ SameMining m m' ∧ (w' k).lamports = (w k).lamports ∧
      lateCount cut m'.diffs ≤ lateCount cut m.diffs + lateBegun cut now accs k i :=
    fun e => ⟨m, (miningAt_congr e).mpr hm, .refl m, by rw [e], Nat.le_add_right _ _⟩
  cases h with
  | @stake _ P1 M A D q q' m1 m1' d d' accs_eq op chk del quiet same sfo ok' sameDel eff shell =>
    left
    obtain ⟨-, a2, -⟩ := accs_eq.pool ⟨_, _, _, _, _, _, _, _, op⟩
    rcases eff.minings hm with ⟨rfl, rfl, h1⟩ | ⟨h1, h0, rfl, y', rfl, h2⟩ | ⟨n1, n2, h1⟩
    · exact ⟨_, h1, same, (shell _).2.1, op.fewLate chk.good.ok chk.miningOk a2⟩
    · exact ⟨_, h2, sameDel.1, (shell _).2.1,
        Nat.le_trans (op.delegateFewLate chk.good.ok chk.miningOk (del _ rfl).ok) (Nat.le_add_right _ _)⟩
    · exact idle (eff.frame k (by rintro rfl; exact PoolAt.not_mining eff.pool hm) n1 n2)
  | @redelegate a nd P1 M A O Old New rest q q' m1 m1' od od' dn dn' accs_eq signed op chk newDel oldOk oldAt ne quiet same sfo
      ok' sameNew sameOld neP eff shell =>
    left
    have hop := op
    rw [changeDelegate_ok] at hop
    by_cases hk : k = M.key
    · subst hk
      obtain rfl := MiningAt.unique hm eff.mining
      exact ⟨_, eff.mining', same, (shell _).2.1,
        Nat.le_add_right_of_le (refresh_late chk.good.ok.history chk.miningOk hop.1)⟩
    · obtain ⟨-, hod, hdn⟩ := redelegate_credit op
      by_cases hk2 : k = Old.key
      · subst hk2
        obtain ⟨rfl, x', rfl, h4⟩ := eff.old.at hk hm
        obtain ⟨y, r, r', e1, e2, e3⟩ := hod _ rfl
        cases e1
        rw [delegateSub_ok, e2] at e3
        exact ⟨_, h4, sameOld.1, (shell _).2.1,
          Nat.le_add_right_of_le (refresh_late' chk.good.ok.history (oldOk _ rfl) _ e3.2.2.1)⟩
      · by_cases hk3 : k = New.key
        · subst hk3
          obtain ⟨rfl, x', rfl, h4⟩ := eff.new.at hk hm
          obtain ⟨y, r, r', e1, e2, e3⟩ := hdn _ rfl
          cases e1
          rw [delegateAdd_ok, e2] at e3
          exact ⟨_, h4, sameNew.1, (shell _).2.1,
            Nat.le_add_right_of_le (refresh_late' chk.good.ok.history (newDel _ rfl).ok _ e3.2.2.1)⟩
        · exact idle (eff.frame k (by rintro rfl; exact PoolAt.not_mining eff.pool hm) hk hk2 hk3)
  | @decrease o n A P1 M rest q m1 m1' accs_eq chk pool op mining mining' same ok' sfo frame shell =>
    left
    by_cases hk : k = M.key
    · subst hk
      obtain rfl := MiningAt.unique hm mining
      refine ⟨_, mining', same, (shell _).2.1, ?_⟩
      rw [decreaseRewards_ok] at op
      rcases op with ⟨_, rfl⟩ | ⟨_, _, rfl⟩
      · exact Nat.le_add_right _ _
      · exact Nat.le_add_right_of_le (Nat.le_of_eq (late_keys (decrease_keys n m.diffs)))
    · exact idle (frame k hk)
  | @claim P1 T V M O A U K rest q m1 m2 n accs_eq signedO signedA eff =>
    left
    obtain ⟨t, htok, -⟩ := eff.userTok
    by_cases hk : k = M.key
    · subst hk
      obtain rfl := MiningAt.unique hm eff.mining
      obtain ⟨s, -⟩ := refresh_same eff.good.ok.history eff.miningOk eff.refreshed
      have g := refresh_late (cut := cut) eff.good.ok.history eff.miningOk eff.refreshed
      exact ⟨_, eff.mining', ⟨s.1, s.2, s.3, s.4, s.5⟩, eff.lamports, Nat.le_add_right_of_le g⟩
    · exact idle (eff.frame k hk (tok _ eff.vaultTok) (tok _ htok.1))
  | distribute _ _ _ _ pool _ _ _ _ _ frame =>
    exact Or.inl (idle (frame k (by rintro rfl; exact PoolAt.not_mining pool hm)))
  | @fill r e P1 T V F S K rest q w1 accs_eq signed auth good pool vault nonzero future later endBound bound pool' w1_frame
      transfer frame neS neV shell =>
    left
    obtain ⟨t, t', ht1, -⟩ := transfer.srcTok
    obtain ⟨u, u', hu, -⟩ := transfer.dstTok
    refine idle (frame k (by rintro rfl; exact PoolAt.not_mining pool hm) (tok _ ?_) (tok _ ?_))
    · rw [← w1_frame _ neS]; exact ht1.1
    · rw [← w1_frame _ neV]; exact hu.1
  | @close M O G A P1 rest q m1 m2 accs_eq signedO signedA good pool auth mining init miningOk owner refreshed sfo paid target
      closed credited frame ne neG =>
    have a2 : miningArg accs .closeMining = some M.key := by rw [accs_eq]; rfl
    by_cases hk : k = M.key
    · subst hk
      exact Or.inr ⟨rfl, a2⟩
    · exact Or.inl (idle (frame k hk (sys _ target)))
  | @initPool f d P1 T V Y A R K S rest bump accs_eq signedY signedA owned len fresh notPda vault pool' vaultBefore vault'
      payer payer' frame =>
    left
    refine idle (frame k ?_ (sys _ vaultBefore.2.2) (sys _ payer.2.1))
    rintro rfl
    rcases fresh with h1 | ⟨m', h1, h2⟩
    · rw [hm.2] at h1; cases h1
    · rw [hm.2] at h1; cases h1; exact absurd (ht.symm.trans h2.type) (by decide)
  | initMining _ _ _ _ before _ payer _ frame =>
    exact Or.inl (idle (frame k (sys _ before.2.2) (sys _ payer.2.1)))

/-- The same for an event. -/
theorem apply_late {s : Chain} (hw : Wf env s.now s.world) {e : Event} (hv : e.Valid env s) {k : Key}
    (hc : KeepsOpen env k s e) {m : Mining} (hm : MiningAt env s.world k m) (ht : m.accountType = 2)
    (hl : 0 < (s.world k).lamports) :
    ∃ m', MiningAt env (s.apply env e).world k m' ∧ SameMining m m' ∧ 0 < ((s.apply env e).world k).lamports ∧
      lateCount cut m'.diffs ≤
        lateCount cut m.diffs + if midnight s.now + 86400 * 365 ≤ cut then 0 else stakesBegun env k s e := by
  cases e with
  | ix accs i =>
    cases hx : exec env s.now s.world accs i with
    | error er =>
      rw [apply_ix_error hx]
      exact ⟨m, hm, .refl m, hl, Nat.le_add_right _ _⟩
    | ok r =>
      obtain ⟨w', ret⟩ := r
      rw [apply_ix_ok hx]
      have e1 : stakesBegun env k s (.ix accs i) = beginsStake accs k i := by simp [stakesBegun, succeeded, hx]
      rw [e1]
      rcases (step_of_exec hw hv hc.1 hx).fewLate (cut := cut) hm ht with ⟨m', g1, g2, g3, g4⟩ | ⟨rfl, g1⟩
      · exact ⟨m', g1, g2, by show 0 < (w' k).lamports; rw [g3]; exact hl, g4⟩
      · exact absurd g1 (hc.2 _ rfl)
  | tick d => exact ⟨m, hm, .refl m, hl, Nat.le_add_right _ _⟩
  | gc j =>
    have hne : k ≠ j := by rintro rfl; exact absurd (show (s.world k).lamports = 0 from hv) (by omega)
    have e1 : (s.apply env (.gc j)).world k = s.world k := world_set_ne _ _ hne
    exact ⟨m, (miningAt_congr e1).mpr hm, .refl m, by rw [e1]; exact hl, Nat.le_add_right _ _⟩
  | ext w' =>
    obtain ⟨e1, -, e3, e4⟩ := hv.program_owned k hm.1
    exact ⟨m, ⟨e1.trans hm.1, e3.trans hm.2⟩, .refl m, Nat.lt_of_lt_of_le hl e4, Nat.le_add_right _ _⟩

/-- Over a history at most the stakes begun in it are added. -/
theorem runs_late {k : Key} {s s' : Chain} {es : List Event} (hr : RunsWith env (KeepsOpen env k) s es s') :
    ∀ {m : Mining}, Wf env s.now s.world → MiningAt env s.world k m → m.accountType = 2 → 0 < (s.world k).lamports →
    ∃ m', MiningAt env s'.world k m' ∧ SameMining m m' ∧ 0 < (s'.world k).lamports ∧
      lateCount cut m'.diffs ≤ lateCount cut m.diffs + totalIn env (stakesBegun env k) s es := by
  induction hr with
  | nil s => exact fun _ hm _ hl => ⟨_, hm, .refl _, hl, Nat.le_add_right _ _⟩
  | cons hv hc _ ih =>
    intro m hw hm ht hl
    obtain ⟨m1, h1, h2, h3, h4⟩ := apply_late (cut := cut) hw hv hc hm ht hl
    obtain ⟨m2, g1, g2, g3, g4⟩ := ih (wf_apply hw hv hc.1) h1 (h2.accountType.trans ht) h3
    simp only [totalIn]
    refine ⟨m2, g1, h2.trans g2, g3, ?_⟩
    split at h4 <;> omega

theorem apply_now_le (s : Chain) (e : Event) : s.now ≤ (s.apply env e).now := by
  cases e with
  | ix accs i => cases hx : exec env s.now s.world accs i with
    | error er => rw [apply_ix_error hx]; exact Nat.le_refl _
    | ok r => rw [apply_ix_ok hx]; exact Nat.le_refl _
  | tick d => exact Nat.le_add_right _ _
  | gc j => exact Nat.le_refl _
  | ext w' => exact Nat.le_refl _

/-- No date is later than 365 days from today, if none was. -/
theorem runs_noneLate {k : Key} {s s' : Chain} {es : List Event} (hr : RunsWith env (KeepsOpen env k) s es s') :
    ∀ {m : Mining}, Wf env s.now s.world → MiningAt env s.world k m → m.accountType = 2 → 0 < (s.world k).lamports →
    lateCount (midnight s.now + 86400 * 365) m.diffs = 0 →
    ∃ m', MiningAt env s'.world k m' ∧ SameMining m m' ∧ 0 < (s'.world k).lamports ∧
      lateCount (midnight s'.now + 86400 * 365) m'.diffs = 0 := by
  induction hr with
  | nil s => exact fun _ hm _ hl h => ⟨_, hm, .refl _, hl, h⟩
  | @cons s s' e es hv hc _ ih =>
    intro m hw hm ht hl h0
    obtain ⟨m1, h1, h2, h3, h4⟩ := apply_late (cut := midnight s.now + 86400 * 365) hw hv hc hm ht hl
    rw [if_pos (Nat.le_refl _), h0] at h4
    have hle : midnight s.now ≤ midnight (s.apply env e).now := by
      have := apply_now_le (env := env) s e
      unfold midnight
      omega
    have := late_mono (Nat.add_le_add_right hle (86400 * 365)) m1.diffs
    obtain ⟨m2, g1, g2, g3⟩ := ih (wf_apply hw hv hc.1) h1 (h2.accountType.trans ht) h3 (by omega)
    exact ⟨m2, g1, h2.trans g2, g3⟩

end Verif
