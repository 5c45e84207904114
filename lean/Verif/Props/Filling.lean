import Verif.Lemmas.TwinGain
import Verif.Lemmas.DemoIncentive
import Verif.Lemmas.Solvency
/-!
C88, C89: filling a vault with more never hurts anybody, and rewards have no influence on stakes.
-/

namespace Verif

open Spec

section
variable {env : Env}

/-- C88: let two histories consist of the same instructions, of which the same succeed, except that the vaults are filled
with at least as many tokens each time in the second (what other programs do may differ).  Then in the end every mining of
the pool `P`, at whatever address, has got at least as much in the second history as in the first, counting what it has been
paid and what it is owed, in 1/10^16 token.  The old delegate given to ChangeDelegate is a mining of the pool and the pool
given to CloseMining is the mining's own (`Straight`; see `C88_foreign_false`). -/
theorem C88_filling_more (hi : env.PdaInjective) {s0 t0 s t : Chain} {es es' : List Event} {P : Key} {p : Pool}
    (hs : Genesis env s0) (ht : Genesis env t0) (hnow : s0.now = t0.now) (h1 : RunsWith env (Straight env P) s0 es s)
    (h2 : RunsWith env (Straight env P) t0 es' t) (hal : Alike env LargerFill s0 t0 es es')
    (hp : PoolAt env s.world P p) :
    ∃ q, PoolAt env t.world P q ∧ p.tokensAvailable ≤ q.tokensAvailable ∧
      ∀ k, 10 ^ 16 * totalIn env (claimedFrom env P k) s0 es + ofMember env s.world P (fun m => owed m p.cumulative) k ≤
        10 ^ 16 * totalIn env (claimedFrom env P k) t0 es' + ofMember env t.world P (fun m => owed m q.cumulative) k := by
  have hr : ∀ {s : Chain}, Genesis env s → Reachable env s := fun h => ⟨_, [], h, .nil _⟩
  obtain ⟨r1, r2, hb⟩ := runs_better hi h1 h2 hal hnow (hr hs) (hr ht) (better_genesis hs ht)
  have w1 := reachable_wf r1
  have w2 := reachable_wf r2
  obtain ⟨q, hq, hpq⟩ := hb.tied.pools P p hp
  have hP0 : P ≠ 0 := (w1 P).nonzero hp.1
  refine ⟨q, hq, (hb.budget p q hp hq).1, fun k => ?_⟩
  have hc : HistAt env s.world P p.cumulative := Or.inl ⟨p, hp, rfl⟩
  have hc' : HistAt env t.world P q.cumulative := Or.inl ⟨q, hq, rfl⟩
  by_cases hk : ∃ m, Member env s.world P k m
  · obtain ⟨m, hm, hP⟩ := hk
    have hty : m.accountType = 2 := by
      rcases reachable_mining r1 hm with h | h
      · exact absurd (hP.symm.trans h.pool) hP0
      · exact h.1
    obtain ⟨n, hn, hmn⟩ := hb.tied.minings k m hm hty
    obtain ⟨g1, g2⟩ := hb.members k m n hm hty hP hn
    have g3 := pending_pair (hc.history w1) (hc'.history w2) (hb.dom _ _ hc hc') hmn (g1 _ _ hc hc')
    rw [ofMember_eq ⟨hm, hP⟩, ofMember_eq ⟨hn, hmn.pool.trans hP⟩]
    simp only [owed]
    simp only [Nat.zero_add] at g2
    omega
  · have g := hb.others k fun m hm _ hP => hk ⟨m, hm, hP⟩
    simp only [Nat.zero_add] at g
    have e : ofMember env s.world P (fun m => owed m p.cumulative) k = 0 := by
      unfold ofMember
      split
      · rename_i ho
        split
        · rename_i m hm
          split
          · rename_i hP; exact absurd ⟨m, ⟨ho, hm⟩, hP⟩ hk
          · rfl
        · rfl
      · rfl
    rw [e]
    omega

/-- C89: let two histories consist of the same instructions, of which the same succeed, except that the vaults are filled with
other amounts and until other dates (what other programs do may differ).  Then in the end the same pools and minings exist,
and they differ only in their rewards: owners, authorities, stakes, delegated stakes, expirations, penalties and totals are
the same. -/
theorem C89_stakes_independent {s0 t0 s t : Chain} {es es' : List Event} (hs : Genesis env s0) (ht : Genesis env t0)
    (hnow : s0.now = t0.now) (h1 : RunsWith env (CleanEvent env) s0 es s) (h2 : RunsWith env (CleanEvent env) t0 es' t)
    (hal : Alike env OtherFill s0 t0 es es') :
    (∀ k p, PoolAt env s.world k p → ∃ q, PoolAt env t.world k q ∧ SameStakes p q) ∧
    (∀ k q, PoolAt env t.world k q → ∃ p, PoolAt env s.world k p ∧ SameStakes p q) ∧
    (∀ k m, MiningAt env s.world k m → m.accountType = 2 → ∃ n, MiningAt env t.world k n ∧ SameStake m n) ∧
    (∀ k n, MiningAt env t.world k n → n.accountType = 2 → ∃ m, MiningAt env s.world k m ∧ SameStake m n) := by
  have h := runs_tied h1 h2 hal hnow (reachable_wf ⟨s0, [], hs, .nil _⟩) (reachable_wf ⟨t0, [], ht, .nil _⟩)
    (tied_genesis hs ht)
  refine ⟨h.pools, fun k q hq => h.poolOf hq, h.minings, fun k n hn hty => ?_⟩
  obtain ⟨m, h1, -, h2⟩ := h.miningOf hn hty
  exact ⟨m, h1, h2⟩

end

section Examples

open Demo

/-- Two events differ at most in how a vault is filled; `f` compares the fillings. -/
def fillsB (f : Nat → Nat → Nat → Nat → Bool) (e e' : Event) : Bool :=
  match e, e' with
  | .ix accs (.fillVault r t), .ix accs' (.fillVault r' t') => decide (accs = accs') && f r t r' t'
  | .ix accs i, .ix accs' i' => decide (accs = accs' ∧ i = i')
  | .tick d, .tick d' => decide (d = d')
  | _, _ => false

theorem fillsB_other {f : Nat → Nat → Nat → Nat → Bool} {e e' : Event} (h : fillsB f e e' = true) : OtherFill e e' := by
  unfold fillsB at h
  split at h
  · simp only [Bool.and_eq_true, decide_eq_true_eq] at h
    obtain ⟨rfl, -⟩ := h
    exact Or.inr ⟨_, _, _, _, _, rfl, rfl⟩
  · obtain ⟨rfl, rfl⟩ := of_decide_eq_true h
    exact Or.inl (Or.inl rfl)
  · obtain rfl := of_decide_eq_true h
    exact Or.inl (Or.inl rfl)
  · cases h

def moreB (r t r' t' : Nat) : Bool := decide (r ≤ r' ∧ t = t')

theorem fillsB_larger {e e' : Event} (h : fillsB moreB e e' = true) : LargerFill e e' := by
  unfold fillsB at h
  split at h
  · simp only [Bool.and_eq_true, decide_eq_true_eq, moreB] at h
    obtain ⟨rfl, h, rfl⟩ := h
    exact Or.inr ⟨_, _, _, _, rfl, rfl, h⟩
  · obtain ⟨rfl, rfl⟩ := of_decide_eq_true h
    exact Or.inl (Or.inl rfl)
  · obtain rfl := of_decide_eq_true h
    exact Or.inl (Or.inl rfl)
  · cases h

def alikeB (f : Nat → Nat → Nat → Nat → Bool) (c : Chain → Event → Bool) : Chain → Chain → List Event → List Event → Bool
  | _, _, [], [] => true
  | s, t, e :: es, e' :: es' => fillsB f e e' && c s e && c t e' && alikeB f c (s.apply Demo.env e) (t.apply Demo.env e') es es'
  | _, _, _, _ => false

theorem alikeB_sound {f : Nat → Nat → Nat → Nat → Bool} {c : Chain → Event → Bool} {C : Chain → Event → Prop}
    {R : Event → Event → Prop} (hR : ∀ e e', fillsB f e e' = true → R e e') (hok : ∀ s e, c s e = true → okEvent s e = true)
    (hC : ∀ s e, c s e = true → C s e) {s t : Chain} {es es' : List Event} (h : alikeB f c s t es es' = true) :
    RunsWith Demo.env C s es (endOf s es) ∧ RunsWith Demo.env C t es' (endOf t es') ∧ Alike Demo.env R s t es es' := by
  induction es generalizing s t es' with
  | nil =>
    cases es' with
    | nil => exact ⟨.nil _, .nil _, trivial⟩
    | cons => cases h
  | cons e es ih =>
    cases es' with
    | nil => cases h
    | cons e' es' =>
      simp only [alikeB, Bool.and_eq_true] at h
      obtain ⟨⟨⟨h1, h2⟩, h3⟩, h4⟩ := h
      obtain ⟨i1, i2, i3⟩ := ih h4
      refine ⟨.cons (okEvent_sound (hok _ _ h2)).1 (hC _ _ h2) i1, .cons (okEvent_sound (hok _ _ h3)).1 (hC _ _ h3) i2,
        hR _ _ h1, ?_, i3⟩
      have go : ∀ {s e}, okEvent s e = true → goesThrough Demo.env s e = true := by
        intro s e h
        cases e with
        | ix accs i =>
          obtain ⟨r, hx⟩ := exec_of_ok h
          simp [goesThrough, succeeded, hx]
        | _ => rfl
      rw [go (hok _ _ h2), go (hok _ _ h3)]

def belongsB (s : Chain) (k P : Key) : Bool :=
  match (s.world k).content with
  | .mining m => decide (m.rewardPool = P)
  | _ => true

def honestB (s : Chain) (accs : List AccountInfo) (i j : Nat) : Bool :=
  match accs[i]?, accs[j]? with
  | some a, some b => belongsB s a.key b.key
  | _, _ => true

def straightB (s : Chain) (e : Event) : Bool :=
  okEvent s e && match e with
    | .ix accs (.changeDelegate ..) => honestB s accs 4 0
    | .ix accs .closeMining => honestB s accs 0 4
    | .gc _ => false
    | _ => true

theorem honestB_sound {s : Chain} {accs : List AccountInfo} {i j : Nat} (h : honestB s accs i j = true) {a b : AccountInfo}
    {m : Mining} (ha : accs[i]? = some a) (hb : accs[j]? = some b) (hm : MiningAt Demo.env s.world a.key m) :
    m.rewardPool = b.key := by
  simp only [honestB, ha, hb, belongsB, hm.2] at h
  exact of_decide_eq_true h

theorem straightB_ok (s : Chain) (e : Event) (h : straightB s e = true) : okEvent s e = true := by
  simp only [straightB, Bool.and_eq_true] at h
  exact h.1

theorem straightB_sound {P : Key} (s : Chain) (e : Event) (h : straightB s e = true) : Straight Demo.env P s e := by
  simp only [straightB, Bool.and_eq_true] at h
  obtain ⟨h1, h2⟩ := h
  refine ⟨(okEvent_sound h1).2, ?_⟩
  cases e with
  | ix accs i =>
    cases i with
    | closeMining => exact fun a b m ha hb hm => honestB_sound h2 ha hb hm
    | changeDelegate => exact fun a b m ha hb hm _ => honestB_sound h2 ha hb hm
    | _ => trivial
  | gc k => cases h2
  | _ => trivial

/-- A history in which the vault is filled twice. -/
def filledWith (r1 t1 r2 t2 : Nat) : List Event :=
  [initPool 100, initMining 100 120, initMining 100 121, deposit 100 121 1000 .flex 121, deposit 100 120 500 .oneYear 121,
    fill 100 r1 t1, distribute 100, .tick DAY, distribute 100, .tick 1000, claim 100 121 131, fill 100 r2 t2,
    deposit 100 120 100 .threeMonths 121, .tick (6 * DAY), distribute 100, .tick 10, withdraw 100 121 300 121,
    redelegate 100 120 500 121 120, extend 100 121 .flex .sixMonths (day0 + 100) 200 50 121, decrease 100 120 7, .tick DAY,
    distribute 100, claim 100 120 130]

/-- `C88_filling_more` applies to filling with 10000 and 400, or with 30000 and 500; user 121 has been paid more and is owed
more. -/
example : ∃ s t, Demo.env.PdaInjective ∧ Genesis Demo.env s0 ∧
    RunsWith Demo.env (Straight Demo.env 100) s0 (filledWith 10000 (day0 + 30 * DAY) 400 (day0 + 30 * DAY)) s ∧
    RunsWith Demo.env (Straight Demo.env 100) s0 (filledWith 30000 (day0 + 30 * DAY) 500 (day0 + 30 * DAY)) t ∧
    Alike Demo.env LargerFill s0 s0 (filledWith 10000 (day0 + 30 * DAY) 400 (day0 + 30 * DAY))
      (filledWith 30000 (day0 + 30 * DAY) 500 (day0 + 30 * DAY)) ∧
    totalIn Demo.env (claimedFrom Demo.env 100 (mine 121 100)) s0 (filledWith 10000 (day0 + 30 * DAY) 400 (day0 + 30 * DAY)) <
      totalIn Demo.env (claimedFrom Demo.env 100 (mine 121 100)) s0 (filledWith 30000 (day0 + 30 * DAY) 500 (day0 + 30 * DAY)) ∧
    hasPool s.world 100 (fun p => hasPool t.world 100 (fun q => decide (p.tokensAvailable < q.tokensAvailable) &&
      hasMining s.world (mine 121 100) (fun m => hasMining t.world (mine 121 100) (fun n =>
        decide (owed m p.cumulative < owed n q.cumulative))))) = true := by
  obtain ⟨h1, h2, h3⟩ := alikeB_sound (s := s0) (t := s0) (es := filledWith 10000 (day0 + 30 * DAY) 400 (day0 + 30 * DAY))
    (es' := filledWith 30000 (day0 + 30 * DAY) 500 (day0 + 30 * DAY)) (f := moreB) (fun _ _ => fillsB_larger) straightB_ok
    (straightB_sound (P := 100)) (by decide +kernel)
  exact ⟨_, _, env_injective, s0_genesis, h1, h2, h3, by decide +kernel, by decide +kernel⟩

/-- `C89_stakes_independent` applies to filling until other dates with other amounts. -/
example : ∃ s t, Genesis Demo.env s0 ∧
    RunsWith Demo.env (CleanEvent Demo.env) s0 (filledWith 10000 (day0 + 30 * DAY) 400 (day0 + 30 * DAY)) s ∧
    RunsWith Demo.env (CleanEvent Demo.env) s0 (filledWith 3000 (day0 + 20 * DAY) 5000 (day0 + 25 * DAY)) t ∧
    Alike Demo.env OtherFill s0 s0 (filledWith 10000 (day0 + 30 * DAY) 400 (day0 + 30 * DAY))
      (filledWith 3000 (day0 + 20 * DAY) 5000 (day0 + 25 * DAY)) ∧
    hasMining s.world (mine 121 100) (fun m => hasMining t.world (mine 121 100) (fun n =>
      decide (m.accountType = 2 ∧ m ≠ n))) = true := by
  obtain ⟨h1, h2, h3⟩ := alikeB_sound (s := s0) (t := s0) (es := filledWith 10000 (day0 + 30 * DAY) 400 (day0 + 30 * DAY))
    (es' := filledWith 3000 (day0 + 20 * DAY) 5000 (day0 + 25 * DAY)) (f := fun _ _ _ _ => true)
    (fun _ _ => fillsB_other) (c := okEvent) (fun _ _ h => h) (C := CleanEvent Demo.env) (fun _ _ h => (okEvent_sound h).2)
    (by decide +kernel)
  exact ⟨_, _, s0_genesis, h1, h2, h3, by decide +kernel⟩

/-- User 121 is the only staker of pool 200, which distributes 3 tokens.  Pool 100 distributes `r` tokens to 10 staked tokens
of user 120.  Then ChangeDelegate in pool 100 is given the mining of user 121 as old delegate. -/
def filledElsewhere (r : Nat) : List Event :=
  [initPool 100, initMining 100 120, deposit 100 120 10 .flex 120, initPoolBy 200 210, initMining 200 121,
    depositBy 200 210 121 1 .flex 121, fill 100 r day0, fill 200 3 day0, distribute 100, .tick DAY,
    .ix [W 100, W (mine 120 100), S 110, S 120, W (mine 121 200), W (mine 120 100)] (.changeDelegate 0 120),
    distribute 200, .tick DAY,
    .ix [R 200, R 101, W (vaultOf 200 101), W (mine 121 200), S 121, S 210, W 131, R 2] .claim]

/-- C88 fails if ChangeDelegate is given a mining of another pool as old delegate: filling pool 100 with 19 tokens instead of 10
costs the member of pool 200 a third of their rewards (2 instead of 3 tokens). -/
theorem C88_foreign_false : ∃ s t p q, Demo.env.PdaInjective ∧ Genesis Demo.env s0 ∧
    RunsWith Demo.env (CleanEvent Demo.env) s0 (filledElsewhere 10) s ∧
    RunsWith Demo.env (CleanEvent Demo.env) s0 (filledElsewhere 19) t ∧
    Alike Demo.env LargerFill s0 s0 (filledElsewhere 10) (filledElsewhere 19) ∧
    PoolAt Demo.env s.world 200 p ∧ PoolAt Demo.env t.world 200 q ∧
    totalIn Demo.env (claimedFrom Demo.env 200 (mine 121 200)) s0 (filledElsewhere 10) = 3 ∧
    totalIn Demo.env (claimedFrom Demo.env 200 (mine 121 200)) s0 (filledElsewhere 19) = 2 ∧
    ofMember Demo.env t.world 200 (fun m => owed m q.cumulative) (mine 121 200) = 0 := by
  obtain ⟨h1, h2, h3⟩ := alikeB_sound (s := s0) (t := s0) (es := filledElsewhere 10) (es' := filledElsewhere 19) (f := moreB)
    (fun _ _ => fillsB_larger) (c := okEvent) (fun _ _ h => h) (C := CleanEvent Demo.env)
    (fun _ _ h => (okEvent_sound h).2) (by decide +kernel)
  have hp : hasPool (endOf s0 (filledElsewhere 10)).world 200 (fun _ => true) = true := by decide +kernel
  have hq : hasPool (endOf s0 (filledElsewhere 19)).world 200 (fun q => hasMining (endOf s0 (filledElsewhere 19)).world
    (mine 121 200) (fun m => decide (m.rewardPool = 200 ∧ owed m q.cumulative = 0))) = true := by decide +kernel
  obtain ⟨p, hp, -⟩ := hasPool_sound hp
  obtain ⟨q, hq, h⟩ := hasPool_sound hq
  obtain ⟨m, hm, h⟩ := hasMining_sound h
  obtain ⟨h4, h5⟩ := of_decide_eq_true h
  refine ⟨_, _, p, q, env_injective, s0_genesis, h1, h2, h3, hp, hq, by decide +kernel, by decide +kernel, ?_⟩
  rw [ofMember_eq ⟨hm, h4⟩]
  exact h5

end Examples

end Verif
