import Verif.Spec.Time
import Verif.Spec.Terms
import Verif.Lemmas.WfLemmas
/-!
The time of day enters the arithmetic only through the current day (C82).
-/

namespace Verif

open Spec

variable {env : Env}

theorem bind_congr_ok {α β : Type} {x : Res α} {f g : α → Res β} (h : ∀ a, x = .ok a → f a = g a) :
    (x >>= f) = (x >>= g) := by
  cases x with
  | error e => rfl
  | ok a => exact h a rfl

theorem Spec.SameDay.symm {t t' : Nat} (h : SameDay t t') : SameDay t' t := ⟨h.day.symm, h.after', h.after⟩

theorem Spec.SameDay.bod {t t' : Nat} (h : SameDay t t') : bod t = bod t' := by
  have := h.day
  have := h.after
  have := h.after'
  have hd : DAY = 86400 := rfl
  simp only [Verif.bod, hd]
  omega

theorem Spec.SameDay.lt {t t' : Nat} (h : SameDay t t') {k : Nat} (hk : k % 86400 = 0) : k < t ↔ k < t' := by
  have := h.day
  have := h.after
  have := h.after'
  omega

theorem Spec.SameDay.gt {t t' : Nat} (h : SameDay t t') {k : Nat} (hk : k % 86400 = 0) : t < k ↔ t' < k := by
  have := h.day
  omega

/-- Every key of the index history is a midnight. -/
def Midnights (l : SMap) : Prop := ∀ e ∈ l, e.1 % 86400 = 0

theorem findMaxLt_day {t t' : Nat} (h : SameDay t t') : ∀ {l : SMap}, Midnights l → l.findMaxLt t = l.findMaxLt t'
  | [], _ => rfl
  | (k, v) :: l, hl => by
    have h1 := findMaxLt_day h (l := l) fun e he => hl e (List.mem_cons_of_mem _ he)
    have h2 := h.lt (hl (k, v) (List.mem_cons_self ..))
    simp only [SMap.findMaxLt, h1, h2]

theorem updateIndex_day {t t' : Nat} (h : SameDay t t') {l : SMap} (hl : Midnights l) (s u i : Nat) :
    Mining.updateIndex l t s u i = Mining.updateIndex l t' s u i := by
  simp only [Mining.updateIndex, findMaxLt_day h hl]

theorem refreshRewards_day {t t' : Nat} (h : SameDay t t') {l : SMap} (hl : Midnights l) (m : Mining) :
    m.refreshRewards t l = m.refreshRewards t' l := by
  simp only [Mining.refreshRewards, updateIndex_day h hl, h.bod]

theorem endTimestamp_day {t t' : Nat} (h : SameDay t t') (p : LockupPeriod) : p.endTimestamp t = p.endTimestamp t' := by
  cases p <;> simp only [LockupPeriod.endTimestamp, h.bod]

theorem delegateSub_day {t t' : Nat} (h : SameDay t t') {p : Pool} (hp : Midnights p.cumulative) (n : Nat) (d : Mining) :
    p.delegateSub t n d = p.delegateSub t' n d := by
  simp only [Pool.delegateSub, refreshRewards_day h hp]

theorem delegateAdd_day {t t' : Nat} (h : SameDay t t') {p : Pool} (hp : Midnights p.cumulative) (n : Nat) (d : Mining) :
    p.delegateAdd t n d = p.delegateAdd t' n d := by
  simp only [Pool.delegateAdd, refreshRewards_day h hp]

theorem withDelegate_sub_day {t t' : Nat} (h : SameDay t t') {p : Pool} (hp : Midnights p.cumulative) (n : Nat)
    (d : Option Mining) : p.withDelegate d (Pool.delegateSub t n) = p.withDelegate d (Pool.delegateSub t' n) := by
  cases d with
  | none => rfl
  | some d => simp only [Pool.withDelegate, delegateSub_day h hp]

theorem withDelegate_add_day {t t' : Nat} (h : SameDay t t') {p : Pool} (hp : Midnights p.cumulative) (n : Nat)
    (d : Option Mining) : p.withDelegate d (Pool.delegateAdd t n) = p.withDelegate d (Pool.delegateAdd t' n) := by
  cases d with
  | none => rfl
  | some d => simp only [Pool.withDelegate, delegateAdd_day h hp]

theorem withDelegate_sub_cum {t n : Nat} {p p' : Pool} {d d' : Option Mining}
    (h : p.withDelegate d (Pool.delegateSub t n) = .ok (p', d')) : p'.cumulative = p.cumulative := by
  cases d with
  | none => rw [withDelegate_none] at h; rw [h.1]
  | some d =>
    rw [withDelegate_some] at h
    obtain ⟨m, h, _⟩ := h
    rw [delegateSub_ok] at h
    rw [h.2.2.2]

theorem consumeOldModifiers_cum {p p' : Pool} {b : Nat} (h : p.consumeOldModifiers b = .ok p') :
    p'.cumulative = p.cumulative := by
  simp only [Pool.consumeOldModifiers, res_bind_ok, res_pure_ok] at h
  obtain ⟨_, _, rfl⟩ := h
  rfl

theorem changeDelegate_day {t t' : Nat} (h : SameDay t t') {p : Pool} (hp : Midnights p.cumulative) (m : Mining)
    (a b : Option Mining) (n : Nat) : p.changeDelegate t m a b n = p.changeDelegate t' m a b n := by
  simp only [Pool.changeDelegate, refreshRewards_day h hp, withDelegate_sub_day h hp]
  refine bind_congr_ok fun m' _ => bind_congr_ok fun ⟨p', b'⟩ hb => ?_
  dsimp only
  rw [withDelegate_add_day h (by rw [withDelegate_sub_cum hb]; exact hp)]

theorem deposit_day {t t' : Nat} (h : SameDay t t') {p : Pool} (hp : Midnights p.cumulative) (c : Caps) (m : Mining)
    (n : Nat) (l : LockupPeriod) (d : Option Mining) : p.deposit c t m n l d = p.deposit c t' m n l d := by
  have key : ∀ a b, ({ p with totalShare := a, diffs := b } : Pool).withDelegate d (Pool.delegateAdd t n) =
      ({ p with totalShare := a, diffs := b } : Pool).withDelegate d (Pool.delegateAdd t' n) :=
    fun a b => withDelegate_add_day h (p := { p with totalShare := a, diffs := b }) hp n d
  simp only [Pool.deposit, refreshRewards_day h hp, endTimestamp_day h, key]

theorem withdraw_day {t t' : Nat} (h : SameDay t t') {p : Pool} (hp : Midnights p.cumulative) (m : Mining)
    (n : Nat) (d : Option Mining) : p.withdraw t m n d = p.withdraw t' m n d := by
  simp only [Pool.withdraw, refreshRewards_day h hp, h.bod]
  refine bind_congr_ok fun _ _ => bind_congr_ok fun _ _ => bind_congr_ok fun _ _ => bind_congr_ok fun p' h' => ?_
  rw [withDelegate_sub_day h (by rw [consumeOldModifiers_cum h']; exact hp)]

theorem slash_day {t t' : Nat} (h : SameDay t t') {p : Pool} (hp : Midnights p.cumulative) (m : Mining)
    (n k : Nat) (e : Option Nat) : p.slash t m n k e = p.slash t' m n k e := by
  simp only [Pool.slash, withdraw_day h hp]

theorem endTimestamp_midnight {p : LockupPeriod} {ts e : Nat} (h : p.endTimestamp ts = .ok e) : e % 86400 = 0 := by
  have hd : DAY = 86400 := rfl
  cases p <;> simp only [LockupPeriod.endTimestamp, rawAdd64, bod, hd] at h <;>
    (try split at h) <;> (try cases h) <;> omega

theorem extend_day {t t' : Nat} (h : SameDay t t') {p : Pool} (hp : Midnights p.cumulative) (c : Caps) (m : Mining)
    (o n : LockupPeriod) (ts a b : Nat) (d : Option Mining) :
    p.extend c t m o n ts a b d = p.extend c t' m o n ts a b d := by
  have key : ∀ (q : Pool) (x : Mining), Midnights q.cumulative →
      (do let amountToRestake ← safeAdd64 a b
          let (q, d) ← q.withDelegate d (Pool.delegateSub t a)
          q.deposit c t x amountToRestake n d) =
      (do let amountToRestake ← safeAdd64 a b
          let (q, d) ← q.withDelegate d (Pool.delegateSub t' a)
          q.deposit c t' x amountToRestake n d) := by
    intro q x hq
    refine bind_congr_ok fun _ _ => ?_
    rw [withDelegate_sub_day h hq]
    refine bind_congr_ok fun ⟨r, d'⟩ hr => ?_
    exact deposit_day h (by rw [withDelegate_sub_cum hr]; exact hq) ..
  simp only [Pool.extend, refreshRewards_day h hp]
  refine bind_congr_ok fun _ _ => ?_
  split
  · refine bind_congr_ok fun oe ho => bind_congr_ok fun _ _ => ?_
    have hoe : oe % 86400 = 0 := by cases ho; rfl
    simp only [h.gt hoe]
    split
    · refine bind_congr_ok fun _ _ => bind_congr_ok fun _ _ => bind_congr_ok fun _ _ => bind_congr_ok fun _ _ =>
        bind_congr_ok fun _ _ => ?_
      exact key _ _ hp
    · refine bind_congr_ok fun _ _ => bind_congr_ok fun _ _ => ?_
      exact key _ _ hp
  · refine bind_congr_ok fun oe ho => bind_congr_ok fun _ _ => ?_
    have hoe : oe % 86400 = 0 := endTimestamp_midnight ho
    simp only [h.gt hoe]
    split
    · refine bind_congr_ok fun _ _ => bind_congr_ok fun _ _ => bind_congr_ok fun _ _ => bind_congr_ok fun _ _ =>
        bind_congr_ok fun _ _ => ?_
      exact key _ _ hp
    · refine bind_congr_ok fun _ _ => bind_congr_ok fun _ _ => ?_
      exact key _ _ hp

theorem distribute_day {t t' : Nat} (h : SameDay t t') {p : Pool} (c : Caps) (n : Nat) :
    p.distribute c t n = p.distribute c t' n := by
  simp only [Pool.distribute, h.bod]

theorem rewardsToDistribute_day {t t' : Nat} (h : SameDay t t') {p : Pool} (hp : p.distributionEndsAt % 86400 = 0) :
    p.rewardsToDistribute t = p.rewardsToDistribute t' := by
  have hd : DAY = 86400 := rfl
  have := h.day
  have := h.after
  have := h.after'
  have : (p.distributionEndsAt - t) / DAY = (p.distributionEndsAt - t') / DAY := by rw [hd]; omega
  simp only [Pool.rewardsToDistribute, this]

theorem goodPool_midnights {now : Nat} {k : Key} {n : Nat} {p : Pool} (h : GoodPool env now k n p) :
    Midnights p.cumulative := h.ok.history.aligned

theorem loaded_midnights {now : Nat} {w : World} (hw : Wf env now w) {accs : List AccountInfo} (hs : RealSigners accs)
    {P M A : AccountInfo} {o : Key} {p : Pool} {m : Mining} (hP : (w P.key).owner = env.programId) (hA : A ∈ accs)
    (hsig : A.isSigner = true) (h : getPoolAndMining env w o M P A = .ok (p, m)) : Midnights p.cumulative := by
  rw [getPoolAndMining_ok] at h
  exact goodPool_midnights (pool_slot (hw P.key) hP h.plen h.pview (hs A hA hsig) (Or.inl h.auth)).2

theorem authorized_midnights {now : Nat} {w : World} (hw : Wf env now w) {accs : List AccountInfo}
    (hs : RealSigners accs) {P A : AccountInfo} {p : Pool} (hP : (w P.key).owner = env.programId) (hA : A ∈ accs)
    (hsig : A.isSigner = true) (h : loadPool env (w P.key) = .ok p) (ha : assertKey A.key p.depositAuthority = .ok ()) :
    Midnights p.cumulative := by
  rw [loadPool_ok] at h
  rw [assertKey_ok] at ha
  exact goodPool_midnights (pool_slot (hw P.key) hP h.1 h.2 (hs A hA hsig) (Or.inl ha)).2

theorem processDepositMining_day {t t' now : Nat} (h : SameDay t t') {w : World} (hw : Wf env now w) {accs : List AccountInfo}
    (hs : RealSigners accs) (n : Nat) (l : LockupPeriod) (o d : Key) :
    processDepositMining env t w accs n l o d = processDepositMining env t' w accs n l o d := by
  unfold processDepositMining
  refine bind_congr_ok fun ⟨P, l1⟩ h1 => bind_congr_ok fun ⟨M, l2⟩ h2 => bind_congr_ok fun ⟨A, l3⟩ h3 =>
    bind_congr_ok fun ⟨D, l4⟩ h4 => bind_congr_ok fun _ _ => bind_congr_ok fun ⟨p, m⟩ h5 => bind_congr_ok fun d _ => ?_
  rw [nextWithOwner_ok] at h1 h2
  rw [nextSigner_ok] at h3
  obtain ⟨rfl, h1⟩ := h1
  dsimp only at h2 h3 h4 h5 ⊢
  rw [h2.1, h3.1] at hs
  rw [deposit_day h (loaded_midnights hw hs h1 (by simp) h3.2 h5)]

theorem processWithdrawMining_day {t t' now : Nat} (h : SameDay t t') {w : World} (hw : Wf env now w) {accs : List AccountInfo}
    (hs : RealSigners accs) (n : Nat) (o d : Key) :
    processWithdrawMining env t w accs n o d = processWithdrawMining env t' w accs n o d := by
  unfold processWithdrawMining
  refine bind_congr_ok fun ⟨P, l1⟩ h1 => bind_congr_ok fun ⟨M, l2⟩ h2 => bind_congr_ok fun ⟨A, l3⟩ h3 =>
    bind_congr_ok fun ⟨D, l4⟩ h4 => bind_congr_ok fun _ _ => bind_congr_ok fun ⟨p, m⟩ h5 => bind_congr_ok fun d _ => ?_
  rw [nextWithOwner_ok] at h1 h2
  rw [nextSigner_ok] at h3
  obtain ⟨rfl, h1⟩ := h1
  dsimp only at h2 h3 h4 h5 ⊢
  rw [h2.1, h3.1] at hs
  rw [withdraw_day h (loaded_midnights hw hs h1 (by simp) h3.2 h5)]

theorem processExtendStake_day {t t' now : Nat} (h : SameDay t t') {w : World} (hw : Wf env now w) {accs : List AccountInfo}
    (hs : RealSigners accs) (ol nl : LockupPeriod) (ts b a : Nat) (o d : Key) :
    processExtendStake env t w accs ol nl ts b a o d = processExtendStake env t' w accs ol nl ts b a o d := by
  unfold processExtendStake
  refine bind_congr_ok fun ⟨P, l1⟩ h1 => bind_congr_ok fun ⟨M, l2⟩ h2 => bind_congr_ok fun ⟨A, l3⟩ h3 =>
    bind_congr_ok fun ⟨D, l4⟩ h4 => bind_congr_ok fun _ _ => bind_congr_ok fun ⟨p, m⟩ h5 => bind_congr_ok fun d _ => ?_
  rw [nextWithOwner_ok] at h1 h2
  rw [nextSigner_ok] at h3
  obtain ⟨rfl, h1⟩ := h1
  dsimp only at h2 h3 h4 h5 ⊢
  rw [h2.1, h3.1] at hs
  rw [extend_day h (loaded_midnights hw hs h1 (by simp) h3.2 h5)]

theorem processChangeDelegate_day {t t' now : Nat} (h : SameDay t t') {w : World} (hw : Wf env now w)
    {accs : List AccountInfo} (hs : RealSigners accs) (n : Nat) (d : Key) :
    processChangeDelegate env t w accs n d = processChangeDelegate env t' w accs n d := by
  unfold processChangeDelegate
  refine bind_congr_ok fun ⟨P, l1⟩ h1 => bind_congr_ok fun ⟨M, l2⟩ h2 => bind_congr_ok fun ⟨A, l3⟩ h3 =>
    bind_congr_ok fun ⟨O, l4⟩ _ => bind_congr_ok fun ⟨D, l5⟩ _ => bind_congr_ok fun ⟨E, l6⟩ _ => bind_congr_ok fun _ _ =>
    bind_congr_ok fun _ _ => bind_congr_ok fun ⟨p, m⟩ h5 => bind_congr_ok fun d _ => ?_
  rw [nextWithOwner_ok] at h1 h2
  rw [nextSigner_ok] at h3
  obtain ⟨rfl, h1⟩ := h1
  dsimp only at h2 h3 h5 ⊢
  rw [h2.1, h3.1] at hs
  have hl := loaded_midnights hw hs h1 (by simp) h3.2 h5
  rw [refreshRewards_day h hl]
  refine bind_congr_ok fun _ _ => bind_congr_ok fun e _ => ?_
  rw [changeDelegate_day h hl]

theorem processSlash_day {t t' now : Nat} (h : SameDay t t') {w : World} (hw : Wf env now w)
    {accs : List AccountInfo} (hs : RealSigners accs) (o : Key) (n k : Nat) (e : Option Nat) :
    processSlash env t w accs o n k e = processSlash env t' w accs o n k e := by
  unfold processSlash
  refine bind_congr_ok fun ⟨A, l1⟩ h1 => bind_congr_ok fun ⟨P, l2⟩ h2 => bind_congr_ok fun ⟨M, l3⟩ h3 =>
    bind_congr_ok fun _ _ => bind_congr_ok fun ⟨p, m⟩ h5 => ?_
  rw [nextWithOwner_ok] at h2
  rw [nextSigner_ok] at h1
  obtain ⟨rfl, h1⟩ := h1
  dsimp only at h2 h3 h5 ⊢
  rw [slash_day h (loaded_midnights hw hs h2.2 (by simp) h1 h5)]

theorem processFillVault_day {t t' : Nat} (h : SameDay t t') {w : World} {accs : List AccountInfo} (n e : Nat) :
    processFillVault env t w accs n e = processFillVault env t' w accs n e := by
  simp only [processFillVault, h.bod]

theorem processClaim_day {t t' now : Nat} (h : SameDay t t') {w : World} (hw : Wf env now w)
    {accs : List AccountInfo} (hs : RealSigners accs) :
    processClaim env t w accs = processClaim env t' w accs := by
  unfold processClaim
  refine bind_congr_ok fun ⟨P, l1⟩ h1 => bind_congr_ok fun ⟨T, l2⟩ h2 => bind_congr_ok fun ⟨V, l3⟩ h3 =>
    bind_congr_ok fun ⟨M, l4⟩ h4 => bind_congr_ok fun ⟨O, l5⟩ h5 => bind_congr_ok fun ⟨A, l6⟩ h6 =>
    bind_congr_ok fun ⟨U, l7⟩ _ => bind_congr_ok fun ⟨X, l8⟩ _ => bind_congr_ok fun u _ => bind_congr_ok fun _ _ =>
    bind_congr_ok fun p hp => bind_congr_ok fun _ ha => bind_congr_ok fun _ _ => bind_congr_ok fun m _ =>
    bind_congr_ok fun _ _ => bind_congr_ok fun _ _ => bind_congr_ok fun _ _ => bind_congr_ok fun _ _ => ?_
  rw [nextWithOwner_ok] at h1 h2 h3 h4
  rw [nextSigner_ok] at h5 h6
  obtain ⟨rfl, h1⟩ := h1
  dsimp only at *
  rw [h2.1, h3.1, h4.1, h5.1, h6.1] at hs
  rw [refreshRewards_day h (authorized_midnights hw hs h1 (by simp) h6.2 hp ha)]

theorem processCloseMining_day {t t' now : Nat} (h : SameDay t t') {w : World} (hw : Wf env now w)
    {accs : List AccountInfo} (hs : RealSigners accs) :
    processCloseMining env t w accs = processCloseMining env t' w accs := by
  unfold processCloseMining
  refine bind_congr_ok fun ⟨M, l1⟩ h1 => bind_congr_ok fun ⟨O, l2⟩ h2 => bind_congr_ok fun ⟨T, l3⟩ h3 =>
    bind_congr_ok fun ⟨A, l4⟩ h4 => bind_congr_ok fun ⟨P, l5⟩ h5 =>
    bind_congr_ok fun p hp => bind_congr_ok fun _ ha => bind_congr_ok fun _ _ => bind_congr_ok fun m _ =>
    bind_congr_ok fun _ _ => ?_
  rw [nextWithOwner_ok] at h1 h3 h5
  rw [nextSigner_ok] at h2 h4
  obtain ⟨rfl, h1⟩ := h1
  dsimp only at *
  rw [h2.1, h3.1, h4.1, h5.1] at hs
  rw [refreshRewards_day h (authorized_midnights hw hs h5.2 (by simp) h4.2 hp ha)]

theorem processDistributeRewards_day {t t' now : Nat} (h : SameDay t t') {w w' : World} (hw : Wf env now w)
    {accs : List AccountInfo} (hs : RealSigners accs) (hx : processDistributeRewards env t w accs = .ok w') :
    processDistributeRewards env t' w accs = .ok w' := by
  unfold processDistributeRewards at hx ⊢
  simp only [res_bind_ok, Prod.exists] at hx ⊢
  obtain ⟨P, l1, h1, A, l2, h2, p, h3, r, h4, u, h5, q, h6, h7⟩ := hx
  refine ⟨P, l1, h1, A, l2, h2, p, h3, r, ?_, u, h5, q, ?_, h7⟩
  · rw [nextWithOwner_ok] at h1
    rw [nextSigner_ok] at h2
    rw [loadPool_ok] at h3
    rw [assertKey_ok] at h5
    obtain ⟨rfl, h1⟩ := h1
    rw [h2.1] at hs
    rw [← rewardsToDistribute_day h (pool_slot (hw P.key) h1 h3.1 h3.2 (hs A (by simp) h2.2)
      (Or.inr (Or.inl h5))).2.ok.ends]
    exact h4
  · rw [← distribute_day h]; exact h6

theorem process_day {t t' now : Nat} (h : SameDay t t') {w : World} (hw : Wf env now w)
    {accs : List AccountInfo} (hs : RealSigners accs) {i : Ix} {r : World × Option Nat}
    (hx : process env t w accs i = .ok r) : process env t' w accs i = .ok r := by
  cases i <;> simp only [process] at hx ⊢
  · exact hx
  · rw [← processFillVault_day h]; exact hx
  · exact hx
  · rw [← processDepositMining_day h hw hs]; exact hx
  · rw [← processWithdrawMining_day h hw hs]; exact hx
  · rw [← processClaim_day h hw hs]; exact hx
  · rw [← processExtendStake_day h hw hs]; exact hx
  · rw [res_bind_ok] at hx ⊢
    obtain ⟨w', h1, h2⟩ := hx
    exact ⟨w', processDistributeRewards_day h hw hs h1, h2⟩
  · rw [← processCloseMining_day h hw hs]; exact hx
  · rw [← processChangeDelegate_day h hw hs]; exact hx
  · rw [← processSlash_day h hw hs]; exact hx
  · exact hx

theorem exec_day {t t' now : Nat} (h : SameDay t t') {w : World} (hw : Wf env now w)
    {accs : List AccountInfo} (hs : RealSigners accs) {i : Ix} {r : World × Option Nat}
    (hx : exec env t w accs i = .ok r) : exec env t' w accs i = .ok r := by
  unfold exec at hx ⊢
  rw [res_bind_ok] at hx ⊢
  obtain ⟨x, h1, h2⟩ := hx
  exact ⟨x, process_day h hw hs h1, h2⟩

theorem exec_day_iff {t t' now : Nat} (h : SameDay t t') {w : World} (hw : Wf env now w)
    {accs : List AccountInfo} (hs : RealSigners accs) {i : Ix} {r : World × Option Nat} :
    exec env t w accs i = .ok r ↔ exec env t' w accs i = .ok r :=
  ⟨exec_day h hw hs, exec_day h.symm hw hs⟩

theorem apply_ix_day {t t' : Nat} (h : SameDay t t') {w : World} (hw : Wf env t w)
    {accs : List AccountInfo} (hs : RealSigners accs) {i : Ix} :
    (Chain.apply env ⟨t, w⟩ (.ix accs i)).world = (Chain.apply env ⟨t', w⟩ (.ix accs i)).world := by
  cases hx : exec env t w accs i with
  | ok r => simp only [Chain.apply, hx, exec_day h hw hs hx]
  | error e =>
    cases hy : exec env t' w accs i with
    | ok r => rw [exec_day h.symm hw hs hy] at hx; cases hx
    | error e' => simp only [Chain.apply, hx, hy]

theorem apply_now {s : Chain} {e : Event} (h : ∀ d, e ≠ .tick d) : (s.apply env e).now = s.now := by
  cases e with
  | ix accs i => simp only [Chain.apply]; split <;> rfl
  | tick d => exact absurd rfl (h d)
  | gc k => rfl
  | ext w => rfl

theorem runs_day {t t' : Nat} {es es' : List Event} (hd : SameDays t t' es es') :
    ∀ {w : World} {r : Chain}, Wf env t w → RunsWith env (CleanEvent env) ⟨t, w⟩ es r →
      ∃ t'', RunsWith env (CleanEvent env) ⟨t', w⟩ es' ⟨t'', r.world⟩ := by
  induction hd with
  | nil t t' =>
    intro w r hw hr
    cases hr
    exact ⟨t', .nil _⟩
  | @ix t t' accs i es es' h _ ih =>
    intro w r hw hr
    cases hr with
    | cons hv hc hr =>
      have hw1 := wf_apply hw hv hc
      have e1 : Chain.apply env ⟨t, w⟩ (.ix accs i) = ⟨t, (Chain.apply env ⟨t', w⟩ (.ix accs i)).world⟩ := by
        rw [← apply_ix_day h hw hv]
        have := apply_now (env := env) (s := ⟨t, w⟩) (e := .ix accs i) nofun
        generalize Chain.apply env ⟨t, w⟩ (.ix accs i) = c at this
        cases c; cases this; rfl
      have e2 : Chain.apply env ⟨t', w⟩ (.ix accs i) = ⟨t', (Chain.apply env ⟨t', w⟩ (.ix accs i)).world⟩ := by
        have := apply_now (env := env) (s := ⟨t', w⟩) (e := .ix accs i) nofun
        generalize Chain.apply env ⟨t', w⟩ (.ix accs i) = c at this
        cases c; cases this; rfl
      rw [e1] at hr hw1
      obtain ⟨t'', h2⟩ := ih hw1 hr
      exact ⟨t'', .cons hv hc (by rw [e2]; exact h2)⟩
  | gc _ ih =>
    intro w r hw hr
    cases hr with
    | cons hv hc hr =>
      obtain ⟨t'', h2⟩ := ih (wf_apply hw hv hc) hr
      exact ⟨t'', .cons hv hc h2⟩
  | ext _ ih =>
    intro w r hw hr
    cases hr with
    | cons hv hc hr =>
      obtain ⟨t'', h2⟩ := ih (wf_apply hw hv hc) hr
      exact ⟨t'', .cons hv hc h2⟩
  | wait _ ih =>
    intro w r hw hr
    cases hr with
    | cons hv hc hr => exact ih (wf_apply hw hv hc) hr
  | wait' _ ih =>
    intro w r hw hr
    obtain ⟨t'', h2⟩ := ih hw hr
    exact ⟨t'', .cons trivial trivial h2⟩

end Verif
