import Verif.Spec.Memory
import Verif.Lemmas.Incentive
import Verif.Lemmas.Life
/-!
Two states that agree about the present and the future, and a common continuation.
-/

namespace Verif

open Spec

variable {env : Env}

theorem Spec.SameOutlook.distributed {now : Nat} {p q : Pool} (h : SameOutlook now p q) (accs : List AccountInfo) (P : Key)
    (i : Ix) : distributedFrom accs now P q i = distributedFrom accs now P p i := by
  cases i <;> try rfl
  simp only [distributedFrom, h.today, h.avail, h.ends]

theorem Spec.SameOutlook.budget {now : Nat} {p q p' q' : Pool} {c : Nat → Int} (h : SameOutlook now p q) (hp : SameBudget p p')
    (hq : SameBudget q q') (tp : ∀ x, midnight now ≤ x → totalOn p' x = totalOn p x + c x)
    (tq : ∀ x, midnight now ≤ x → totalOn q' x = totalOn q x + c x) : SameOutlook now p' q' := by
  obtain ⟨a1, a2, -, a4⟩ := hp
  obtain ⟨b1, b2, -, b4⟩ := hq
  refine ⟨by rw [a1, b1, h.avail], by rw [a2, b2, h.ends], ?_, fun x hx => by rw [tp x hx, tq x hx, h.totals x hx]⟩
  simp only [NewDay, a4, b4]
  exact h.today

theorem newDay_later {now now' : Nat} {p : Pool} (hp : PoolOk now p) (hl : now ≤ now') :
    NewDay p now' ↔ (midnight now' = midnight now → NewDay p now) := by
  constructor
  · intro h e; unfold NewDay; rw [← e]; exact h
  · intro h x hx
    by_cases e : midnight now' = midnight now
    · rw [e]; exact h e x hx
    · have := hp.past x hx
      have : midnight now ≤ midnight now' := by simp only [midnight]; omega
      omega

/-- Pools, one instruction. -/
theorem outlook_ix {now : Nat} {v w v' w' : World} {accs : List AccountInfo} {i : Ix} {r r' : Option Nat}
    (hv : Wf env now v) (hw : Wf env now w) (hs : RealSigners accs) (hcv : NotPoolAsMining env v accs i)
    (hcw : NotPoolAsMining env w accs i) (h1 : exec env now v accs i = .ok (v', r))
    (h2 : exec env now w accs i = .ok (w', r')) {P : Key} {p q : Pool} (hp : PoolAt env v P p) (hq : PoolAt env w P q)
    (hr1 : RoomInPool env P ⟨now, v⟩ (.ix accs i)) (hr2 : RoomInPool env P ⟨now, w⟩ (.ix accs i))
    (hsch : SameOutlook now p q) {p' q' : Pool} (hp' : PoolAt env v' P p')
    (hq' : PoolAt env w' P q') (hl1 : p.cumulative.length < env.caps.index) (hl2 : q.cumulative.length < env.caps.index) :
    SameOutlook now p' q' := by
  have key : ∀ {Q M D : Key} {pi1 pi2 : Pool → Prop} {mi1 mi2 : Mining → Prop} {tot own : Nat → Int} {del : Int},
      StakesChange env now v v' Q M D pi1 mi1 tot own del → StakesChange env now w w' Q M D pi2 mi2 tot own del →
      (P = Q → pi1 p ∧ pi2 q) → SameOutlook now p' q' := by
    intro Q M D pi1 pi2 mi1 mi2 tot own del c1 c2 hroom
    obtain ⟨p2, a1, a2, -, a3, a4⟩ := c1.pools P p hp
    obtain ⟨q2, b1, b2, -, b3, b4⟩ := c2.pools P q hq
    obtain rfl := PoolAt.unique hp' a1
    obtain rfl := PoolAt.unique hq' b1
    by_cases hP : P = Q
    · exact hsch.budget a2 b2 (a4 hP (hroom hP).1) (b4 hP (hroom hP).2)
    · rw [a3 hP, b3 hP]; exact hsch
  have quiet : i.isStake = false → i.isBudget = false → SameOutlook now p' q' := by
    intro hi hb
    obtain ⟨p2, a1, a2, -⟩ := (step_of_exec hv hs hcv h1).pool hp
    obtain ⟨q2, b1, b2, -⟩ := (step_of_exec hw hs hcw h2).pool hq
    obtain rfl := PoolAt.unique hp' a1
    obtain rfl := PoolAt.unique hq' b1
    cases a2 with
    | same =>
      cases b2 with
      | same => exact hsch
      | stake hi' => rw [hi] at hi'; cases hi'
      | distribute => cases hb
      | fill => cases hb
    | stake hi' => rw [hi] at hi'; cases hi'
    | distribute => cases hb
    | fill => cases hb
  cases i with
  | depositMining a l o d =>
    obtain ⟨Q, M, A, D, rest, k, n, e1, t1, -, c1⟩ := C17_deposit hv hs h1
    obtain ⟨Q', M', A', D', rest', k', n', e2, t2, -, c2⟩ := C17_deposit hw hs h2
    rw [e1] at e2; cases e2
    rw [t1] at t2; cases t2
    refine key c1 c2 fun hP => ?_
    have hf : FirstIs accs P := by rw [e1, hP]; rfl
    exact ⟨hr1 hf p k n hp t1, hr2 hf q k n hq t1⟩
  | extendStake ol l ts b a o d =>
    obtain ⟨Q, M, A, D, rest, k, n, k1, n1, e1, t1, u1, -, c1, -⟩ := C22_extend_partial hv hs h1
    obtain ⟨Q', M', A', D', rest', k', n', k1', n1', e2, t2, u2, -, c2, -⟩ := C22_extend_partial hw hs h2
    rw [e1] at e2; cases e2
    rw [t1] at t2; cases t2
    rw [u1] at u2; cases u2
    refine key c1 c2 fun hP => ?_
    have hf : FirstIs accs P := by rw [e1, hP]; rfl
    exact ⟨hr1 hf p k1 n1 hp u1, hr2 hf q k1 n1 hq u1⟩
  | withdrawMining a o d =>
    obtain ⟨Q, M, A, D, rest, e1, -, c1, -⟩ := C20_withdraw hv hs h1
    obtain ⟨Q', M', A', D', rest', e2, -, c2, -⟩ := C20_withdraw hw hs h2
    rw [e1] at e2; cases e2
    exact key c1 c2 fun _ => ⟨trivial, trivial⟩
  | slash o n mu ex =>
    obtain ⟨A, Q, M, rest, e1, -, c1, -⟩ := C21_slash hv hs h1
    obtain ⟨A', Q', M', rest', e2, -, c2, -⟩ := C21_slash hw hs h2
    rw [e1] at e2; cases e2
    exact key c1 c2 fun _ => ⟨trivial, trivial⟩
  | changeDelegate a nd =>
    obtain ⟨Q, M, A, O, Old, New, rest, e1, -, -, -, c1, -⟩ := C23_change_delegate hv hs hcv h1
    obtain ⟨Q', M', A', O', Old', New', rest', e2, -, -, -, c2, -⟩ := C23_change_delegate hw hs hcw h2
    rw [e1] at e2; cases e2
    obtain ⟨p2, a1, a2, -, a3, a4⟩ := c1 P p hp
    obtain ⟨q2, b1, b2, -, b3, b4⟩ := c2 P q hq
    obtain rfl := PoolAt.unique hp' a1
    obtain rfl := PoolAt.unique hq' b1
    by_cases hP : P = Q.key
    · refine hsch.budget a2 b2 (c := fun _ => - (if Old.key = M.key then 0 else (a : Int)) +
        (if New.key = M.key then 0 else (a : Int))) (fun x _ => ?_) fun x _ => ?_
      · rw [a4 hP x]; omega
      · rw [b4 hP x]; omega
    · rw [a3 hP, b3 hP]; exact hsch
  | fillVault r e =>
    obtain ⟨p2, a1, a2, -⟩ := (step_of_exec hv hs hcv h1).pool hp
    obtain ⟨q2, b1, b2, -⟩ := (step_of_exec hw hs hcw h2).pool hq
    obtain rfl := PoolAt.unique hp' a1
    obtain rfl := PoolAt.unique hq' b1
    cases a2 with
    | same other =>
      cases b2 with
      | same => exact hsch
      | stake hi' => cases hi'
      | fill acc => exact absurd acc (other rfl)
    | stake hi' => cases hi'
    | fill acc =>
      cases b2 with
      | same other => exact absurd acc (other rfl)
      | stake hi' => cases hi'
      | fill => exact ⟨by simp only [hsch.avail], rfl, hsch.today, hsch.totals⟩
  | distributeRewards =>
    obtain ⟨p2, a1, a2, -⟩ := (step_of_exec hv hs hcv h1).pool hp
    obtain ⟨q2, b1, b2, -⟩ := (step_of_exec hw hs hcw h2).pool hq
    obtain rfl := PoolAt.unique hp' a1
    obtain rfl := PoolAt.unique hq' b1
    have okp := (poolAt_good hv hp).ok
    have okq := (poolAt_good hw hq).ok
    cases a2 with
    | same other =>
      cases b2 with
      | same => exact hsch
      | stake hi' => cases hi'
      | distribute acc => exact absurd acc (other rfl)
    | stake hi' => cases hi'
    | @distribute _ r1 acc _ am1 op1 =>
      cases b2 with
      | same other => exact absurd acc (other rfl)
      | stake hi' => cases hi'
      | @distribute _ r2 _ _ am2 op2 =>
        have e1 := rewardsToDistribute_ok am1
        have e2 := rewardsToDistribute_ok am2
        have er : r1 = r2 := by rw [e1, e2, hsch.avail, hsch.ends]
        by_cases hn : NewDay p now
        · obtain ⟨T, t1, -, -, -, rfl⟩ := distribute_new okp hn op1
          obtain ⟨U, u1, -, -, -, rfl⟩ := distribute_new okq (hsch.today.mp hn) op2
          refine ⟨by simp only [hsch.avail, er], hsch.ends, ?_, ?_⟩
          · simp only [hl1, hl2, if_true, NewDay]
            constructor <;> intro h
            · exact absurd rfl (h _ (List.mem_append_right _ (List.mem_singleton.mpr rfl)))
            · exact absurd rfl (h _ (List.mem_append_right _ (List.mem_singleton.mpr rfl)))
          · intro x hx
            have k1 := totalOn_after t1 hx
            have k2 := totalOn_after u1 hx
            have k3 := hsch.totals x hx
            simp only [totalOn] at k1 k2 k3 ⊢
            omega
        · obtain ⟨T, t1, rfl⟩ := distribute_again okp hn op1
          obtain ⟨U, u1, rfl⟩ := distribute_again okq (fun h => hn (hsch.today.mpr h)) op2
          refine ⟨hsch.avail, hsch.ends, hsch.today, ?_⟩
          intro x hx
          have k1 := totalOn_after t1 hx
          have k2 := totalOn_after u1 hx
          have k3 := hsch.totals x hx
          simp only [totalOn] at k1 k2 k3 ⊢
          omega
  | _ => exact quiet rfl rfl

/-- Instructions that are not about stake leave the stake of a mining as it is, unless they close or penalize it. -/
theorem Step.keepsStake {now : Nat} {w w' : World} {accs : List AccountInfo} {i : Ix} {ret : Option Nat}
    (h : Step env now w w' accs i ret) {k : Key} {m m' : Mining} (hm : MiningAt env w k m) (ht : m.accountType = 2)
    (hi : restakes i = false) (hd : ∀ a d, i ≠ .changeDelegate a d)
    (hno : miningArg accs i = some k → i ≠ .closeMining ∧ ∀ o x, i ≠ .decreaseRewards o x) (hm' : MiningAt env w' k m') :
    SameStanding now m m' := by
  have same : w' k = w k → SameStanding now m m' := by
    intro e
    rw [MiningAt.unique hm' ((miningAt_congr e).mpr hm)]
    exact ⟨rfl, fun _ _ => rfl⟩
  have tok : ∀ j, (w j).owner = env.tokenProgram → k ≠ j := by
    rintro j hj rfl; exact env.program_ne_token (hm.1.symm.trans hj)
  have sys : ∀ j, (w j).owner = env.systemProgram → k ≠ j := by
    rintro j hj rfl; exact env.program_ne_system (hm.1.symm.trans hj)
  cases h with
  | stake _ op => rw [op.facts.1] at hi; cases hi
  | redelegate => exact absurd rfl (hd _ _)
  | @decrease o n A P1 M rest q m1 m1' accs_eq chk pool op mining mining' same' ok' sfo frame shell =>
    by_cases hk : k = M.key
    · exact absurd rfl ((hno (by rw [accs_eq, hk]; rfl)).2 o n)
    · exact same (frame k hk)
  | @claim P1 T V M O A U K rest q m1 m2 n accs_eq signedO signedA eff =>
    obtain ⟨t, htok, -⟩ := eff.userTok
    by_cases hk : k = M.key
    · subst hk
      obtain rfl := MiningAt.unique hm eff.mining
      obtain rfl := MiningAt.unique hm' eff.mining'
      obtain ⟨s, -⟩ := refresh_same eff.good.ok.history eff.miningOk eff.refreshed
      obtain ⟨g1, -⟩ := refresh_weight eff.good.ok.history eff.miningOk eff.refreshed
      obtain ⟨c, e1, -⟩ := refresh_ok eff.good.ok.history eff.miningOk.sorted eff.refreshed
      refine ⟨?_, fun x hx => ?_⟩
      · show m2.stakeFromOthers = _
        rw [e1]
      · exact g1 x (by rw [bod_eq_midnight]; exact hx)
    · exact same (eff.frame k hk (tok _ eff.vaultTok) (tok _ htok.1))
  | distribute _ _ _ _ pool _ _ _ _ _ frame => exact same (frame k (by rintro rfl; exact PoolAt.not_mining pool hm))
  | @fill r e P1 T V F S K rest q w1 accs_eq signed auth good pool vault nonzero future later endBound bound pool' w1_frame
      transfer frame neS neV shell =>
    obtain ⟨t, t', ht1, -⟩ := transfer.srcTok
    obtain ⟨u, u', hu, -⟩ := transfer.dstTok
    refine same (frame k (by rintro rfl; exact PoolAt.not_mining pool hm) (tok _ ?_) (tok _ ?_))
    · rw [← w1_frame _ neS]; exact ht1.1
    · rw [← w1_frame _ neV]; exact hu.1
  | @close M O G A P1 rest q m1 m2 accs_eq signedO signedA good pool auth mining init miningOk owner refreshed sfo paid target
      closed credited frame ne neG =>
    by_cases hk : k = M.key
    · exact absurd rfl (hno (by rw [accs_eq, hk]; rfl)).1
    · exact same (frame k hk (sys _ target))
  | @initPool f d P1 T V Y A R K S rest bump accs_eq signedY signedA owned len fresh notPda vault pool' vaultBefore vault'
      payer payer' frame =>
    refine same (frame k ?_ (sys _ vaultBefore.2.2) (sys _ payer.2.1))
    rintro rfl
    rcases fresh with h1 | ⟨m', h1, h2⟩
    · rw [hm.2] at h1; cases h1
    · rw [hm.2] at h1; cases h1; exact absurd (ht.symm.trans h2.type) (by decide)
  | initMining _ _ _ _ before _ payer _ frame =>
    exact same (frame k (sys _ before.2.2) (sys _ payer.2.1))

/-- The stake of a mining, one instruction. -/
theorem standing_ix {now : Nat} {v w v' w' : World} {accs : List AccountInfo} {i : Ix} {r r' : Option Nat}
    (hv : Wf env now v) (hw : Wf env now w) (hs : RealSigners accs) (hcv : NotPoolAsMining env v accs i)
    (hcw : NotPoolAsMining env w accs i) (h1 : exec env now v accs i = .ok (v', r))
    (h2 : exec env now w accs i = .ok (w', r')) {k : Key} {m n m' n' : Mining} (hm : MiningAt env v k m) (hn : MiningAt env w k n)
    (hr1 : RoomInTable env k ⟨now, v⟩ (.ix accs i)) (hr2 : RoomInTable env k ⟨now, w⟩ (.ix accs i))
    (hno : miningArg accs i = some k → i ≠ .closeMining ∧ ∀ o x, i ≠ .decreaseRewards o x)
    (hmt : m.accountType = 2) (hnt : n.accountType = 2)
    (h : SameStanding now m n) (hm' : MiningAt env v' k m') (hn' : MiningAt env w' k n') : SameStanding now m' n' := by
  have key : ∀ {Q M D : Key} {pi1 pi2 : Pool → Prop} {mi1 mi2 : Mining → Prop} {tot own : Nat → Int} {del : Int},
      StakesChange env now v v' Q M D pi1 mi1 tot own del → StakesChange env now w w' Q M D pi2 mi2 tot own del →
      (k = M → mi1 m ∧ mi2 n) → SameStanding now m' n' := by
    intro Q M D pi1 pi2 mi1 mi2 tot own del c1 c2 hroom
    obtain ⟨m2, a1, -, -, a3, a4, a5⟩ := c1.minings k m hm
    obtain ⟨n2, b1, -, -, b3, b4, b5⟩ := c2.minings k n hn
    obtain rfl := MiningAt.unique hm' a1
    obtain rfl := MiningAt.unique hn' b1
    have := h.others
    refine ⟨by omega, fun x hx => ?_⟩
    by_cases hk : k = M
    · rw [a4 hk (hroom hk).1 x hx, b4 hk (hroom hk).2 x hx, h.weights x hx]
    · rw [a5 hk x hx, b5 hk x hx, h.weights x hx]
  have quiet : restakes i = false → (∀ a d, i ≠ .changeDelegate a d) → SameStanding now m' n' := by
    intro e1 e2
    obtain ⟨a1, a2⟩ := (step_of_exec hv hs hcv h1).keepsStake hm hmt e1 e2 hno hm'
    obtain ⟨b1, b2⟩ := (step_of_exec hw hs hcw h2).keepsStake hn hnt e1 e2 hno hn'
    exact ⟨by rw [a1, b1, h.others], fun x hx => by rw [a2 x hx, b2 x hx, h.weights x hx]⟩
  cases i with
  | depositMining a l o d =>
    obtain ⟨Q, M, A, D, rest, k', n', e1, t1, -, c1⟩ := C17_deposit hv hs h1
    obtain ⟨Q', M', A', D', rest', k2, n2, e2, t2, -, c2⟩ := C17_deposit hw hs h2
    rw [e1] at e2; cases e2
    rw [t1] at t2; cases t2
    refine key c1 c2 fun hk => ?_
    have hf : miningArg accs (.depositMining a l o d) = some k := by rw [e1, hk]; rfl
    exact ⟨hr1 hf m _ _ hm t1, hr2 hf n _ _ hn t1⟩
  | extendStake ol l ts b a o d =>
    obtain ⟨Q, M, A, D, rest, k', n', k1, n1, e1, t1, u1, -, c1, -⟩ := C22_extend_partial hv hs h1
    obtain ⟨Q', M', A', D', rest', k2, n2, k1', n1', e2, t2, u2, -, c2, -⟩ := C22_extend_partial hw hs h2
    rw [e1] at e2; cases e2
    rw [t1] at t2; cases t2
    rw [u1] at u2; cases u2
    refine key c1 c2 fun hk => ?_
    have hf : miningArg accs (.extendStake ol l ts b a o d) = some k := by rw [e1, hk]; rfl
    exact ⟨hr1 hf m _ _ hm u1, hr2 hf n _ _ hn u1⟩
  | withdrawMining a o d =>
    obtain ⟨Q, M, A, D, rest, e1, -, c1, -⟩ := C20_withdraw hv hs h1
    obtain ⟨Q', M', A', D', rest', e2, -, c2, -⟩ := C20_withdraw hw hs h2
    rw [e1] at e2; cases e2
    exact key c1 c2 fun _ => ⟨trivial, trivial⟩
  | slash o x mu ex =>
    obtain ⟨A, Q, M, rest, e1, -, c1, -⟩ := C21_slash hv hs h1
    obtain ⟨A', Q', M', rest', e2, -, c2, -⟩ := C21_slash hw hs h2
    rw [e1] at e2; cases e2
    exact key c1 c2 fun _ => ⟨trivial, trivial⟩
  | changeDelegate a nd =>
    obtain ⟨Q, M, A, O, Old, New, rest, e1, -, -, -, -, c1, -⟩ := C23_change_delegate hv hs hcv h1
    obtain ⟨Q', M', A', O', Old', New', rest', e2, -, -, -, -, c2, -⟩ := C23_change_delegate hw hs hcw h2
    rw [e1] at e2; cases e2
    obtain ⟨m2, a1, -, -, a3, a4⟩ := c1 k m hm
    obtain ⟨n2, b1, -, -, b3, b4⟩ := c2 k n hn
    obtain rfl := MiningAt.unique hm' a1
    obtain rfl := MiningAt.unique hn' b1
    have := h.others
    exact ⟨by omega, fun x hx => by rw [a4 x hx, b4 x hx, h.weights x hx]⟩
  | _ => exact quiet rfl (fun _ _ => nofun)

theorem Spec.SameStanding.later {now now' : Nat} {m n : Mining} (h : SameStanding now m n) (hl : now ≤ now') :
    SameStanding now' m n :=
  ⟨h.others, fun x hx => h.weights x (by have : midnight now ≤ midnight now' := by simp only [midnight]; omega
                                         omega)⟩

theorem Spec.SameOutlook.later {now now' : Nat} {p q : Pool} (h : SameOutlook now p q) (hp : PoolOk now p) (hq : PoolOk now q)
    (hl : now ≤ now') : SameOutlook now' p q := by
  refine ⟨h.avail, h.ends, ?_, fun x hx => h.totals x ?_⟩
  · rw [newDay_later hp hl, newDay_later hq hl, h.today]
  · have : midnight now ≤ midnight now' := by simp only [midnight]; omega
    omega

theorem earning_same {now : Nat} {m n : Mining} (h : SameStanding now m n) :
    earningOn n (midnight now) = earningOn m (midnight now) := by
  have h1 := h.others
  have h2 := h.weights _ (Nat.le_refl _)
  simp only [earningOn, weightOn] at *
  omega

/-- An event that is not a successful instruction leaves a mining as it is. -/
theorem mining_waits {s : Chain} {e : Event} {k : Key} {m m1 : Mining} (hv : e.Valid env s) (hm : MiningAt env s.world k m)
    (hml : 0 < (s.world k).lamports) (hno : ∀ accs i, e ≠ .ix accs i) (hm1 : MiningAt env (s.apply env e).world k m1) :
    m1 = m := by
  cases e with
  | ix accs i => exact absurd rfl (hno accs i)
  | tick d => exact MiningAt.unique hm1 hm
  | gc j =>
    have hne : k ≠ j := by rintro rfl; exact absurd (show (s.world k).lamports = 0 from hv) (by omega)
    have e1 : (s.apply env (.gc j)).world k = s.world k := world_set_ne _ _ hne
    exact MiningAt.unique hm1 ((miningAt_congr e1).mpr hm)
  | ext w' =>
    obtain ⟨e1, -, e3, -⟩ := hv.program_owned k hm.1
    exact MiningAt.unique hm1 ⟨e1.trans hm.1, e3.trans hm.2⟩

theorem pool_waits {s : Chain} {e : Event} {k : Key} {m m1 : Pool} (hv : e.Valid env s) (hm : PoolAt env s.world k m)
    (hml : 0 < (s.world k).lamports) (hno : ∀ accs i, e ≠ .ix accs i) (hm1 : PoolAt env (s.apply env e).world k m1) :
    m1 = m := by
  cases e with
  | ix accs i => exact absurd rfl (hno accs i)
  | tick d => exact PoolAt.unique hm1 hm
  | gc j =>
    have hne : k ≠ j := by rintro rfl; exact absurd (show (s.world k).lamports = 0 from hv) (by omega)
    have e1 : (s.apply env (.gc j)).world k = s.world k := world_set_ne _ _ hne
    exact PoolAt.unique hm1 ⟨by rw [e1]; exact hm.1, by rw [e1]; exact hm.2⟩
  | ext w' =>
    obtain ⟨e1, -, e3, -⟩ := hv.program_owned k hm.1
    exact PoolAt.unique hm1 ⟨e1.trans hm.1, e3.trans hm.2⟩

theorem incomeBy_idle {u : Chain} {f : Event} {x : Mining} {P : Key} (hf : ∀ accs i, f ≠ .ix accs i) :
    incomeBy env P x u f = 0 := by
  cases f <;> first | rfl | exact absurd rfl (hf _ _)

/-- What the next call earns. -/
theorem earned_outlook {P k : Key} {now : Nat} {v w : World} {accs : List AccountInfo} {i : Ix} {p q : Pool} {m n : Mining}
    (c1 : (v k).content = .mining m) (c2 : (w k).content = .mining n) (c3 : (v P).content = .pool p)
    (c4 : (w P).content = .pool q) (hal : succeeded env ⟨now, v⟩ accs i = succeeded env ⟨now, w⟩ accs i)
    (ho : SameOutlook now p q) (hst : SameStanding now m n) :
    earnedBy env P k ⟨now, w⟩ (.ix accs i) = earnedBy env P k ⟨now, v⟩ (.ix accs i) := by
  have d1 := ho.distributed
  have d2 := ho.totals _ (Nat.le_refl _)
  have d3 := earning_same hst
  simp only [earnedBy, c1, c2, incomeBy, c3, c4, ← hal, incomeFrom, d1, d2, d3]

/-- One event that is not a call. -/
theorem outlook_idle {P k : Key} {s t : Chain} {e e' : Event} {p q p1 q1 : Pool} {m n m1 n1 : Mining} (hnow : s.now = t.now)
    (hs : Wf env s.now s.world) (ht : Wf env t.now t.world) (hv1 : e.Valid env s) (hv2 : e'.Valid env t)
    (hm : Proper env s.world k m) (hn : Proper env t.world k n)
    (hp : PoolAt env s.world P p) (hq : PoolAt env t.world P q) (hpl : 0 < (s.world P).lamports)
    (hql : 0 < (t.world P).lamports) (hml : 0 < (s.world k).lamports) (hnl : 0 < (t.world k).lamports)
    (ho : SameOutlook s.now p q) (hst : SameStanding s.now m n)
    (hm1 : MiningAt env (s.apply env e).world k m1) (hn1 : MiningAt env (t.apply env e').world k n1)
    (hp1 : PoolAt env (s.apply env e).world P p1) (hq1 : PoolAt env (t.apply env e').world P q1)
    (i1 : ∀ accs i, e ≠ .ix accs i) (i2 : ∀ accs i, e' ≠ .ix accs i) (hle : s.now ≤ (s.apply env e).now)
    (heq : (s.apply env e).now = (t.apply env e').now) :
    (s.apply env e).now = (t.apply env e').now ∧ SameOutlook (s.apply env e).now p1 q1 ∧
      SameStanding (s.apply env e).now m1 n1 ∧ earnedBy env P k t e' = earnedBy env P k s e := by
  obtain rfl := mining_waits hv1 hm.1 hml i1 hm1
  obtain rfl := mining_waits hv2 hn.1 hnl i2 hn1
  obtain rfl := pool_waits hv1 hp hpl i1 hp1
  obtain rfl := pool_waits hv2 hq hql i2 hq1
  refine ⟨heq, ho.later (poolAt_good hs hp).ok (by rw [hnow]; exact (poolAt_good ht hq).ok) hle, hst.later hle, ?_⟩
  simp only [earnedBy, hm.1.2, hn.1.2, incomeBy_idle i1, incomeBy_idle i2]

/-- One call. -/
theorem outlook_call {P k : Key} {now : Nat} {v w : World} {accs : List AccountInfo} {i : Ix} {p q p1 q1 : Pool}
    {m n m1 n1 : Mining} (hs : Wf env now v) (ht : Wf env now w) (hv1 : Event.Valid env ⟨now, v⟩ (.ix accs i))
    (hc1 : CarefulEvent env P k ⟨now, v⟩ (.ix accs i)) (hr1 : RoomInPool env P ⟨now, v⟩ (.ix accs i))
    (hr1' : RoomInTable env k ⟨now, v⟩ (.ix accs i))
    (hc2 : CarefulEvent env P k ⟨now, w⟩ (.ix accs i)) (hr2 : RoomInPool env P ⟨now, w⟩ (.ix accs i))
    (hr2' : RoomInTable env k ⟨now, w⟩ (.ix accs i))
    (hal : succeeded env ⟨now, v⟩ accs i = succeeded env ⟨now, w⟩ accs i) (hm : Proper env v k m) (hn : Proper env w k n)
    (hp : PoolAt env v P p) (hq : PoolAt env w P q) (hl1 : p.cumulative.length < env.caps.index)
    (hl2 : q.cumulative.length < env.caps.index) (ho : SameOutlook now p q) (hst : SameStanding now m n)
    (hm1 : MiningAt env (Chain.apply env ⟨now, v⟩ (.ix accs i)).world k m1)
    (hn1 : MiningAt env (Chain.apply env ⟨now, w⟩ (.ix accs i)).world k n1)
    (hp1 : PoolAt env (Chain.apply env ⟨now, v⟩ (.ix accs i)).world P p1)
    (hq1 : PoolAt env (Chain.apply env ⟨now, w⟩ (.ix accs i)).world P q1) :
    (Chain.apply env ⟨now, v⟩ (.ix accs i)).now = (Chain.apply env ⟨now, w⟩ (.ix accs i)).now ∧
      SameOutlook (Chain.apply env ⟨now, v⟩ (.ix accs i)).now p1 q1 ∧
      SameStanding (Chain.apply env ⟨now, v⟩ (.ix accs i)).now m1 n1 := by
  cases hx : exec env now v accs i with
  | error er =>
    cases hy : exec env now w accs i with
    | ok r => simp [succeeded, hx, hy] at hal
    | error er' =>
      rw [apply_ix_error (s := ⟨now, v⟩) hx] at hp1 hm1 ⊢
      rw [apply_ix_error (s := ⟨now, w⟩) hy] at hq1 hn1 ⊢
      obtain rfl := PoolAt.unique hp hp1
      obtain rfl := PoolAt.unique hq hq1
      obtain rfl := MiningAt.unique hm.1 hm1
      obtain rfl := MiningAt.unique hn.1 hn1
      exact ⟨rfl, ho, hst⟩
  | ok r =>
    cases hy : exec env now w accs i with
    | error er' => simp [succeeded, hx, hy] at hal
    | ok r' =>
      obtain ⟨v', ret⟩ := r
      obtain ⟨w', ret'⟩ := r'
      rw [apply_ix_ok (s := ⟨now, v⟩) hx] at hp1 hm1 ⊢
      rw [apply_ix_ok (s := ⟨now, w⟩) hy] at hq1 hn1 ⊢
      have hsu : succeeded env ⟨now, v⟩ accs i = true := by simp [succeeded, hx]
      have x1 := outlook_ix hs ht hv1 hc1.1 hc2.1 hx hy hp hq hr1 hr2 ho hp1 hq1 hl1 hl2
      have x2 := standing_ix hs ht hv1 hc1.1 hc2.1 hx hy hm.1 hn.1 hr1' hr2'
        (fun h => ⟨((hc1.2 hsu).own h).1, ((hc1.2 hsu).own h).2.1⟩) hm.2 hn.2 hst hm1 hn1
      exact ⟨rfl, x1, x2⟩

/-- One event. -/
theorem outlook_event {P k : Key} {s t : Chain} {e e' : Event} {p q p1 q1 : Pool} {m n m1 n1 : Mining} (hnow : s.now = t.now)
    (hs : Wf env s.now s.world) (ht : Wf env t.now t.world) (hv1 : e.Valid env s) (hv2 : e'.Valid env t)
    (hc1 : CarefulEvent env P k s e ∧ RoomInPool env P s e ∧ RoomInTable env k s e)
    (hc2 : CarefulEvent env P k t e' ∧ RoomInPool env P t e' ∧ RoomInTable env k t e') (hee : SameEvent e e')
    (hgo : goesThrough env s e = goesThrough env t e') (hm : Proper env s.world k m) (hn : Proper env t.world k n)
    (hp : PoolAt env s.world P p) (hq : PoolAt env t.world P q) (hpl : 0 < (s.world P).lamports)
    (hql : 0 < (t.world P).lamports) (hml : 0 < (s.world k).lamports) (hnl : 0 < (t.world k).lamports)
    (hl1 : p.cumulative.length < env.caps.index)
    (hl2 : q.cumulative.length < env.caps.index) (ho : SameOutlook s.now p q) (hst : SameStanding s.now m n)
    (hm1 : MiningAt env (s.apply env e).world k m1) (hn1 : MiningAt env (t.apply env e').world k n1)
    (hp1 : PoolAt env (s.apply env e).world P p1) (hq1 : PoolAt env (t.apply env e').world P q1) :
    (s.apply env e).now = (t.apply env e').now ∧ SameOutlook (s.apply env e).now p1 q1 ∧
      SameStanding (s.apply env e).now m1 n1 ∧ earnedBy env P k t e' = earnedBy env P k s e := by
  have idle := outlook_idle hnow hs ht hv1 hv2 hm hn hp hq hpl hql hml hnl ho hst hm1 hn1 hp1 hq1
  rcases hee with rfl | ⟨w, w', rfl, rfl⟩
  · cases e with
    | ix accs i =>
      have hal : succeeded env s accs i = succeeded env t accs i := hgo
      obtain ⟨now, v⟩ := s
      obtain ⟨now', w⟩ := t
      cases hnow
      obtain ⟨x1, x2, x3⟩ := outlook_call hs ht hv1 hc1.1 hc1.2.1 hc1.2.2 hc2.1 hc2.2.1 hc2.2.2 hal hm hn hp hq hl1 hl2 ho hst
        hm1 hn1 hp1 hq1
      exact ⟨x1, x2, x3, earned_outlook hm.1.2 hn.1.2 hp.2 hq.2 hal ho hst⟩
    | tick d => exact idle (by nofun) (by nofun) (by simp only [Chain.apply]; omega) (by simp only [Chain.apply, hnow])
    | gc j => exact idle (by nofun) (by nofun) (Nat.le_refl _) hnow
    | ext w => exact idle (by nofun) (by nofun) (Nat.le_refl _) hnow
  · exact idle (by nofun) (by nofun) (Nat.le_refl _) hnow

/-- The number of distributions never falls. -/
theorem length_le_event {P : Key} {s : Chain} {e : Event} {p p1 : Pool} (hs : Wf env s.now s.world)
    (hp : PoolAt env s.world P p) (h : PoolEvent env s P p e p1) : p.cumulative.length ≤ p1.cumulative.length := by
  cases h with
  | same => exact Nat.le_refl _
  | ix ok change =>
    rcases (change.history (poolAt_good hs hp).ok).1 with h1 | ⟨-, h1⟩
    · rw [h1]; exact Nat.le_refl _
    · rw [h1]; simp

theorem length_le_end {P : Key} {s s' : Chain} {es : List Event} (hr : RunsWith env (CleanEvent env) s es s')
    (hw : Wf env s.now s.world) {p p' : Pool} (hp : PoolAt env s.world P p) (hpl : 0 < (s.world P).lamports)
    (hp' : PoolAt env s'.world P p') : p.cumulative.length ≤ p'.cumulative.length := by
  induction hr generalizing p with
  | nil => rw [PoolAt.unique hp hp']; exact Nat.le_refl _
  | cons hv hc _ ih =>
    obtain ⟨p1, b1, b2, b3⟩ := apply_pool hw hv hc hp hpl
    exact Nat.le_trans (length_le_event hw hp b3) (ih (wf_apply hw hv hc) b1 b2 hp')

/-- Whole histories. -/
theorem outlook_runs {P k : Key} {es es' : List Event} {s t s' t' : Chain}
    (h1 : RunsWith env (fun s e => CarefulEvent env P k s e ∧ RoomInPool env P s e ∧ RoomInTable env k s e) s es s')
    (h2 : RunsWith env (fun s e => CarefulEvent env P k s e ∧ RoomInPool env P s e ∧ RoomInTable env k s e) t es' t')
    (hal : Alike env SameEvent s t es es') (hnow : s.now = t.now) (hs : Reachable env s) (ht : Reachable env t)
    {m n : Mining} {p q p' q' : Pool} (hm : Proper env s.world k m) (hn : Proper env t.world k n) (hmp : m.rewardPool = P)
    (hnp : n.rewardPool = P) (hml : 0 < (s.world k).lamports) (hnl : 0 < (t.world k).lamports)
    (hp : PoolAt env s.world P p) (hq : PoolAt env t.world P q) (hpl : 0 < (s.world P).lamports)
    (hql : 0 < (t.world P).lamports) (hi : m.index ≤ p.index) (hj : n.index ≤ q.index) (ho : SameOutlook s.now p q)
    (hst : SameStanding s.now m n) (hp' : PoolAt env s'.world P p') (hq' : PoolAt env t'.world P q')
    (hroom1 : p'.cumulative.length < env.caps.index) (hroom2 : q'.cumulative.length < env.caps.index) :
    s'.now = t'.now ∧ SameOutlook s'.now p' q' ∧
      (∃ m' n', Proper env s'.world k m' ∧ Proper env t'.world k n' ∧ SameStanding s'.now m' n') ∧
      totalIn env (earnedBy env P k) t es' = totalIn env (earnedBy env P k) s es := by
  induction es generalizing s t es' m n p q with
  | nil =>
    cases es' with
    | cons => exact hal.elim
    | nil =>
      cases h1; cases h2
      rw [PoolAt.unique hp' hp, PoolAt.unique hq' hq]
      exact ⟨hnow, ho, ⟨m, n, hm, hn, hst⟩, rfl⟩
  | cons e es ih =>
    cases es' with
    | nil => exact hal.elim
    | cons e' es' =>
      have w1 := h1.weaken (C' := CleanEvent env) fun _ _ h => h.1.1
      have w2 := h2.weaken (C' := CleanEvent env) fun _ _ h => h.1.1
      cases h1 with | cons hv1 hc1 h1 =>
      cases h2 with | cons hv2 hc2 h2 =>
      obtain ⟨hee, hgo, hal⟩ := hal
      have hs' := hs.step hv1 hc1.1.1
      have ht' := ht.step hv2 hc2.1.1
      have l1 := length_le_end w1 (reachable_wf hs) hp hpl hp'
      have l2 := length_le_end w2 (reachable_wf ht) hq hql hq'
      obtain ⟨p1, b1, b2, b3⟩ := apply_pool (reachable_wf hs) hv1 hc1.1.1 hp hpl
      obtain ⟨q1, c1, c2, c3⟩ := apply_pool (reachable_wf ht) hv2 hc2.1.1 hq hql
      have l3 := length_le_end (h1.weaken (C' := CleanEvent env) fun _ _ h => h.1.1) (reachable_wf hs') b1 b2 hp'
      have l4 := length_le_end (h2.weaken (C' := CleanEvent env) fun _ _ h => h.1.1) (reachable_wf ht') c1 c2 hq'
      obtain ⟨m1, g1, g2, g3, g4, -⟩ := event_life hs hv1 hc1.1 hm hmp hml hp hi b3 (by omega)
      obtain ⟨n1, k1, k2, k3, k4, -⟩ := event_life ht hv2 hc2.1 hn hnp hnl hq hj c3 (by omega)
      obtain ⟨x1, x2, x3, x4⟩ := outlook_event hnow (reachable_wf hs) (reachable_wf ht) hv1 hv2 hc1 hc2 hee hgo hm hn hp hq hpl hql
        hml hnl (by omega) (by omega) ho hst g1.1 k1.1 b1 c1
      obtain ⟨y1, y2, y3, y4⟩ := ih h1 h2 hal x1 hs' ht' g1 k1 g2 k2 g3 k3 b1 c1 b2 c2 g4 k4 x2 x3
      exact ⟨y1, y2, y3, by simp only [totalIn, x4, y4]⟩

/-! ## The pool alone -/

theorem distributed_outlook {P : Key} {now : Nat} {v w : World} {accs : List AccountInfo} {i : Ix} {p q : Pool}
    (c3 : (v P).content = .pool p) (c4 : (w P).content = .pool q)
    (hal : succeeded env ⟨now, v⟩ accs i = succeeded env ⟨now, w⟩ accs i) (ho : SameOutlook now p q) :
    distributedBy env P ⟨now, w⟩ (.ix accs i) = distributedBy env P ⟨now, v⟩ (.ix accs i) := by
  have d1 := ho.distributed
  simp only [distributedBy, c3, c4, ← hal, d1]

theorem pool_call {P : Key} {now : Nat} {v w : World} {accs : List AccountInfo} {i : Ix} {p q p1 q1 : Pool}
    (hs : Wf env now v) (ht : Wf env now w) (hv1 : Event.Valid env ⟨now, v⟩ (.ix accs i))
    (hc1 : CleanEvent env ⟨now, v⟩ (.ix accs i)) (hr1 : RoomInPool env P ⟨now, v⟩ (.ix accs i))
    (hc2 : CleanEvent env ⟨now, w⟩ (.ix accs i)) (hr2 : RoomInPool env P ⟨now, w⟩ (.ix accs i))
    (hal : succeeded env ⟨now, v⟩ accs i = succeeded env ⟨now, w⟩ accs i)
    (hp : PoolAt env v P p) (hq : PoolAt env w P q) (hl1 : p.cumulative.length < env.caps.index)
    (hl2 : q.cumulative.length < env.caps.index) (ho : SameOutlook now p q)
    (hp1 : PoolAt env (Chain.apply env ⟨now, v⟩ (.ix accs i)).world P p1)
    (hq1 : PoolAt env (Chain.apply env ⟨now, w⟩ (.ix accs i)).world P q1) :
    (Chain.apply env ⟨now, v⟩ (.ix accs i)).now = (Chain.apply env ⟨now, w⟩ (.ix accs i)).now ∧
      SameOutlook (Chain.apply env ⟨now, v⟩ (.ix accs i)).now p1 q1 := by
  cases hx : exec env now v accs i with
  | error er =>
    cases hy : exec env now w accs i with
    | ok r => simp [succeeded, hx, hy] at hal
    | error er' =>
      rw [apply_ix_error (s := ⟨now, v⟩) hx] at hp1 ⊢
      rw [apply_ix_error (s := ⟨now, w⟩) hy] at hq1 ⊢
      obtain rfl := PoolAt.unique hp hp1
      obtain rfl := PoolAt.unique hq hq1
      exact ⟨rfl, ho⟩
  | ok r =>
    cases hy : exec env now w accs i with
    | error er' => simp [succeeded, hx, hy] at hal
    | ok r' =>
      obtain ⟨v', ret⟩ := r
      obtain ⟨w', ret'⟩ := r'
      rw [apply_ix_ok (s := ⟨now, v⟩) hx] at hp1 ⊢
      rw [apply_ix_ok (s := ⟨now, w⟩) hy] at hq1 ⊢
      exact ⟨rfl, outlook_ix hs ht hv1 hc1 hc2 hx hy hp hq hr1 hr2 ho hp1 hq1 hl1 hl2⟩

theorem pool_event_outlook {P : Key} {s t : Chain} {e e' : Event} {p q p1 q1 : Pool} (hnow : s.now = t.now)
    (hs : Wf env s.now s.world) (ht : Wf env t.now t.world) (hv1 : e.Valid env s) (hv2 : e'.Valid env t)
    (hc1 : CleanEvent env s e ∧ RoomInPool env P s e)
    (hc2 : CleanEvent env t e' ∧ RoomInPool env P t e') (hee : SameEvent e e')
    (hgo : goesThrough env s e = goesThrough env t e')
    (hp : PoolAt env s.world P p) (hq : PoolAt env t.world P q) (hpl : 0 < (s.world P).lamports)
    (hql : 0 < (t.world P).lamports) (hl1 : p.cumulative.length < env.caps.index)
    (hl2 : q.cumulative.length < env.caps.index) (ho : SameOutlook s.now p q)
    (hp1 : PoolAt env (s.apply env e).world P p1) (hq1 : PoolAt env (t.apply env e').world P q1) :
    (s.apply env e).now = (t.apply env e').now ∧ SameOutlook (s.apply env e).now p1 q1 ∧
      distributedBy env P t e' = distributedBy env P s e := by
  have idle : (∀ accs i, e ≠ .ix accs i) → (∀ accs i, e' ≠ .ix accs i) → s.now ≤ (s.apply env e).now →
      (s.apply env e).now = (t.apply env e').now → (s.apply env e).now = (t.apply env e').now ∧
        SameOutlook (s.apply env e).now p1 q1 ∧ distributedBy env P t e' = distributedBy env P s e := by
    intro i1 i2 hle heq
    obtain rfl := pool_waits hv1 hp hpl i1 hp1
    obtain rfl := pool_waits hv2 hq hql i2 hq1
    refine ⟨heq, ho.later (poolAt_good hs hp).ok (by rw [hnow]; exact (poolAt_good ht hq).ok) hle, ?_⟩
    have z : ∀ {u : Chain} {f : Event}, (∀ accs i, f ≠ .ix accs i) → distributedBy env P u f = 0 := by
      intro u f hf
      cases f <;> first | rfl | exact absurd rfl (hf _ _)
    rw [z i1, z i2]
  rcases hee with rfl | ⟨w, w', rfl, rfl⟩
  · cases e with
    | ix accs i =>
      have hal : succeeded env s accs i = succeeded env t accs i := hgo
      obtain ⟨now, v⟩ := s
      obtain ⟨now', w⟩ := t
      cases hnow
      obtain ⟨x1, x2⟩ := pool_call hs ht hv1 hc1.1 hc1.2 hc2.1 hc2.2 hal hp hq hl1 hl2 ho hp1 hq1
      exact ⟨x1, x2, distributed_outlook hp.2 hq.2 hal ho⟩
    | tick d => exact idle (by nofun) (by nofun) (by simp only [Chain.apply]; omega) (by simp only [Chain.apply, hnow])
    | gc j => exact idle (by nofun) (by nofun) (Nat.le_refl _) hnow
    | ext w => exact idle (by nofun) (by nofun) (Nat.le_refl _) hnow
  · exact idle (by nofun) (by nofun) (Nat.le_refl _) hnow

/-- Whole histories of the pool alone. -/
theorem pool_runs_outlook {P : Key} {es es' : List Event} {s t s' t' : Chain}
    (h1 : RunsWith env (fun s e => CleanEvent env s e ∧ RoomInPool env P s e) s es s')
    (h2 : RunsWith env (fun s e => CleanEvent env s e ∧ RoomInPool env P s e) t es' t')
    (hal : Alike env SameEvent s t es es') (hnow : s.now = t.now) (hs : Wf env s.now s.world) (ht : Wf env t.now t.world)
    {p q p' q' : Pool} (hp : PoolAt env s.world P p) (hq : PoolAt env t.world P q) (hpl : 0 < (s.world P).lamports)
    (hql : 0 < (t.world P).lamports) (ho : SameOutlook s.now p q) (hp' : PoolAt env s'.world P p') (hq' : PoolAt env t'.world P q')
    (hroom1 : p'.cumulative.length < env.caps.index) (hroom2 : q'.cumulative.length < env.caps.index) :
    s'.now = t'.now ∧ SameOutlook s'.now p' q' ∧
      totalIn env (distributedBy env P) t es' = totalIn env (distributedBy env P) s es := by
  induction es generalizing s t es' p q with
  | nil =>
    cases es' with
    | cons => exact hal.elim
    | nil =>
      cases h1; cases h2
      rw [PoolAt.unique hp' hp, PoolAt.unique hq' hq]
      exact ⟨hnow, ho, rfl⟩
  | cons e es ih =>
    cases es' with
    | nil => exact hal.elim
    | cons e' es' =>
      have w1 := h1.weaken (C' := CleanEvent env) fun _ _ h => h.1
      have w2 := h2.weaken (C' := CleanEvent env) fun _ _ h => h.1
      have l1 := length_le_end w1 hs hp hpl hp'
      have l2 := length_le_end w2 ht hq hql hq'
      cases h1 with | cons hv1 hc1 h1 =>
      cases h2 with | cons hv2 hc2 h2 =>
      obtain ⟨hee, hgo, hal⟩ := hal
      obtain ⟨p1, b1, b2, -⟩ := apply_pool hs hv1 hc1.1 hp hpl
      obtain ⟨q1, c1, c2, -⟩ := apply_pool ht hv2 hc2.1 hq hql
      obtain ⟨x1, x2, x4⟩ := pool_event_outlook hnow hs ht hv1 hv2 hc1 hc2 hee hgo hp hq hpl hql (by omega) (by omega) ho b1 c1
      obtain ⟨y1, y2, y4⟩ := ih h1 h2 hal x1 (wf_apply hs hv1 hc1.1) (wf_apply ht hv2 hc2.1) b1 c1 b2 c2 x2
      exact ⟨y1, y2, by simp only [totalIn, x4, y4]⟩

end Verif
