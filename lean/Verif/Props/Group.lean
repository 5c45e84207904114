import Verif.Lemmas.GroupRun
import Verif.Props.Aside
/-!
C114: of a group of stakers the others see only what the group does as a whole.
-/

namespace Verif

open Spec

section
variable {env : Env}

/-- The data of the minings of a state. -/
def miningsOf (w : World) (k : Key) : Mining :=
  match (w k).content with
  | .mining m => m
  | _ => Mining.zero

theorem around_refl {w : World} {K : List Key} (hm : ∀ k ∈ K, 0 < (w k).lamports ∧ ∃ m, Proper env w k m) :
    Around env K (miningsOf w) w w := by
  have hk : ∀ k ∈ K, ∃ m, MiningAt env w k m ∧ SameMining (miningsOf w k) m := by
    intro k hk
    obtain ⟨-, m, h, -⟩ := hm k hk
    exact ⟨m, h, by unfold miningsOf; rw [h.2]; exact .refl _⟩
  exact ⟨fun _ _ => Or.inl rfl, hk, hk, fun _ _ => rfl, fun _ _ => rfl, fun k hk => (hm k hk).1⟩

/-- C114.  Take a group of stakers and two histories from the same state in which the same happens, except for what the members of
the group arrange among themselves: a stake of one member can be another member's in the other history (deposited, locked,
extended, slashed or withdrawn on the same terms), stakes that are delegated within the group can be delegated to other members,
and members can change the delegate among themselves, claim and be penalized at any time or not at all.  At the end all accounts
but token accounts and the members' own minings are the same in both: every pool with its total stake and its distributions, and
the stake and the rewards of everybody outside the group; everybody outside has been paid the same; and the members have the
minings they had. -/
theorem C114_outside {K : List Key} {s s1 s2 : Chain} {es es' : List Event} (hre : Reachable env s)
    (hm : ∀ k ∈ K, 0 < (s.world k).lamports ∧ ∃ m, Proper env s.world k m)
    (h1 : RunsWith env (NoneClosed env K) s es s1) (h2 : RunsWith env (NoneClosed env K) s es' s2)
    (hu : UpToGroup env K s s es es') :
    s1.now = s2.now ∧ (∀ j, j ∉ K → SameOrTokens env (s1.world j) (s2.world j)) ∧
      (∀ P p, PoolAt env s1.world P p ↔ PoolAt env s2.world P p) ∧
      (∀ j, j ∉ K → ∀ x, MiningAt env s1.world j x ↔ MiningAt env s2.world j x) ∧
      (∀ j, j ∉ K → totalIn env (claimedBy env j) s es = totalIn env (claimedBy env j) s es') ∧
      ∀ k ∈ K, ∃ m m1 m2, MiningAt env s.world k m ∧ MiningAt env s1.world k m1 ∧ MiningAt env s2.world k m2 ∧
        m1.owner = m.owner ∧ m2.owner = m.owner ∧ m1.rewardPool = m.rewardPool ∧ m2.rewardPool = m.rewardPool ∧
        (s1.world k).lamports = (s2.world k).lamports ∧ (s1.world k).len = (s2.world k).len := by
  have hpda : ∀ k ∈ K, env.IsPda k := by
    intro k hk
    obtain ⟨-, m, h⟩ := hm k hk
    exact isPda_of_proper hre h
  obtain ⟨k1, k2, k3⟩ := around_runs hpda hu h1 h2 (reachable_wf hre) (reachable_wf hre) rfl (around_refl hm)
  refine ⟨k1, k2.others, fun P p => ⟨fun h => around_pool k2 h, fun h => around_pool k2.symm h⟩,
    fun j hj x => ⟨fun h => (miningAt_congr (k2.eq_program hj h.1)).mp h,
      fun h => (miningAt_congr (k2.symm.eq_program hj h.1)).mp h⟩, k3, fun k hk => ?_⟩
  obtain ⟨-, m, h, -⟩ := hm k hk
  have hI : miningsOf s.world k = m := by unfold miningsOf; rw [h.2]
  obtain ⟨m1, a1, a2⟩ := k2.first k hk
  obtain ⟨m2, b1, b2⟩ := k2.second k hk
  rw [hI] at a2 b2
  exact ⟨m, m1, m2, h, a1, b1, a2.owner, b2.owner, a2.rewardPool, b2.rewardPool, k2.lamports k hk, k2.len k hk⟩

end

/-! ### Concrete cases -/

section Examples
open Demo

/-- What happens in the two histories. -/
inductive Arranged
  | same (e : Event)
  | swap (e e' : Event)
  | one (e : Event)
  | two (e : Event)

def inFirst : List Arranged → List Event
  | [] => []
  | .same e :: l => e :: inFirst l
  | .swap e _ :: l => e :: inFirst l
  | .one e :: l => e :: inFirst l
  | .two _ :: l => inFirst l

def inSecond : List Arranged → List Event
  | [] => []
  | .same e :: l => e :: inSecond l
  | .swap _ e :: l => e :: inSecond l
  | .one _ :: l => inSecond l
  | .two e :: l => e :: inSecond l

def allIn (K : List Key) (o : Option Key) : Bool := match o with
  | none => true
  | some j => decide (j ∈ K)

def insideB (K : List Key) (accs : List AccountInfo) (i : Ix) : Bool :=
  allIn K (miningArg accs i) && allIn K (delegateArg accs i) && allIn K (oldDelegateArg accs i)

theorem insideB_sound {K : List Key} {accs : List AccountInfo} {i : Ix} (h : insideB K accs i = true) : Inside K accs i := by
  simp only [insideB, Bool.and_eq_true] at h
  obtain ⟨⟨h1, h2⟩, h3⟩ := h
  intro j hj
  rcases hj with e | e | e <;> simp_all [allIn]

def sameTermsB : Ix → Ix → Bool
  | .depositMining a l _ _, .depositMining a' l' _ _ => decide (a = a' ∧ l = l')
  | .withdrawMining a _ _, .withdrawMining a' _ _ => decide (a = a')
  | .extendStake ol nl ts b a _ _, .extendStake ol' nl' ts' b' a' _ _ =>
    decide (ol = ol' ∧ nl = nl' ∧ ts = ts' ∧ b = b' ∧ a = a')
  | .slash _ n mu ex, .slash _ n' mu' ex' => decide (n = n' ∧ mu = mu' ∧ ex = ex')
  | .changeDelegate a _, .changeDelegate a' _ => decide (a = a')
  | _, _ => false

theorem sameTermsB_sound {i i' : Ix} (h : sameTermsB i i' = true) : SameTerms i i' := by
  cases i <;> cases i' <;> first | cases h | simpa [sameTermsB, SameTerms] using h

def inPlaceB (K : List Key) : Event → Event → Bool
  | .ix accs i, .ix accs' i' => sameTermsB i i' && insideB K accs i && insideB K accs' i' &&
      decide (poolArg accs i = poolArg accs' i') &&
      decide (miningArg accs i = delegateArg accs i ↔ miningArg accs' i' = delegateArg accs' i') &&
      decide (miningArg accs i = oldDelegateArg accs i ↔ miningArg accs' i' = oldDelegateArg accs' i')
  | _, _ => false

theorem inPlaceB_sound {K : List Key} {e e' : Event} (h : inPlaceB K e e' = true) : InPlaceOf K e e' := by
  unfold inPlaceB at h
  split at h
  · simp only [Bool.and_eq_true, decide_eq_true_eq] at h
    obtain ⟨⟨⟨⟨⟨h1, h2⟩, h3⟩, h4⟩, h5⟩, h6⟩ := h
    exact ⟨_, _, _, _, rfl, rfl, sameTermsB_sound h1, insideB_sound h2, insideB_sound h3, h4, h5, h6⟩
  · cases h

def amongB (K : List Key) : Event → Bool
  | .ix accs .claim => (miningArg accs .claim).isSome && allIn K (miningArg accs .claim)
  | .ix accs (.decreaseRewards o n) =>
    (miningArg accs (.decreaseRewards o n)).isSome && allIn K (miningArg accs (.decreaseRewards o n))
  | .ix accs (.changeDelegate a d) => insideB K accs (.changeDelegate a d) &&
      !decide (miningArg accs (.changeDelegate a d) = oldDelegateArg accs (.changeDelegate a d)) &&
      !decide (miningArg accs (.changeDelegate a d) = delegateArg accs (.changeDelegate a d))
  | _ => false

theorem allIn_sound {K : List Key} {o : Option Key} (h : (o.isSome && allIn K o) = true) : ∃ k ∈ K, o = some k := by
  cases o with
  | none => cases h
  | some k => exact ⟨k, by simpa [allIn] using h, rfl⟩

theorem amongB_sound {K : List Key} {e : Event} (h : amongB K e = true) : AmongThem K e := by
  unfold amongB at h
  split at h
  · exact allIn_sound h
  · exact allIn_sound h
  · simp only [Bool.and_eq_true, Bool.not_eq_true', decide_eq_false_iff_not] at h
    exact ⟨insideB_sound h.1.1, h.1.2, h.2⟩
  · cases h

def upToGroupB (K : List Key) : Chain → Chain → List Arranged → Bool
  | _, _, [] => true
  | s, t, .same e :: es => okEvent s e && okEvent t e && upToGroupB K (s.apply Demo.env e) (t.apply Demo.env e) es
  | s, t, .swap e e' :: es => inPlaceB K e e' && okEvent s e && okEvent t e' &&
      upToGroupB K (s.apply Demo.env e) (t.apply Demo.env e') es
  | s, t, .one e :: es => amongB K e && upToGroupB K (s.apply Demo.env e) t es
  | s, t, .two e :: es => amongB K e && upToGroupB K s (t.apply Demo.env e) es

theorem goes_of_ok {s t : Chain} {e e' : Event} (h1 : okEvent s e = true) (h2 : okEvent t e' = true) :
    goesThrough Demo.env s e = goesThrough Demo.env t e' := by
  have key : ∀ {s : Chain} {e : Event}, okEvent s e = true → goesThrough Demo.env s e = true := by
    intro s e h
    cases e with
    | ix accs i =>
      obtain ⟨r, h⟩ := exec_of_ok h
      simp [goesThrough, succeeded, h]
    | _ => rfl
  rw [key h1, key h2]

theorem upToGroupB_sound {K : List Key} {es : List Arranged} : ∀ {s t : Chain}, upToGroupB K s t es = true →
    UpToGroup Demo.env K s t (inFirst es) (inSecond es) := by
  induction es with
  | nil => exact fun _ => .done
  | cons a es ih =>
    intro s t h
    cases a <;> simp only [upToGroupB, Bool.and_eq_true] at h
    · exact .both (Or.inl (Or.inl rfl)) (goes_of_ok h.1.1 h.1.2) (ih h.2)
    · exact .both (Or.inr (inPlaceB_sound h.1.1.1)) (goes_of_ok h.1.1.2 h.1.2) (ih h.2)
    · exact .first (amongB_sound h.1) (ih h.2)
    · exact .second (amongB_sound h.1) (ih h.2)

def noneClosedB (K : List Key) (s : Chain) (e : Event) : Bool :=
  okEvent s e && match e with
    | .ix accs i => !decide (i = .closeMining) || K.all fun k => !decide (miningArg accs i = some k)
    | _ => true

theorem noneClosedB_sound {K : List Key} (s : Chain) (e : Event) (h : noneClosedB K s e = true) :
    e.Valid Demo.env s ∧ NoneClosed Demo.env K s e := by
  simp only [noneClosedB, Bool.and_eq_true] at h
  obtain ⟨h1, h2⟩ := h
  refine ⟨(okEvent_sound h1).1, (okEvent_sound h1).2, ?_⟩
  cases e with
  | ix accs i =>
    intro _ k hk hm hi
    subst hi
    simp only [decide_true, Bool.not_true, Bool.false_or, List.all_eq_true, Bool.not_eq_true', decide_eq_false_iff_not] at h2
    exact h2 k hk hm
  | _ => trivial

/-- The group: users 120, 122 and 123; user 121 is not in it. -/
def theGroup : List Key := [mine 120 100, mine 122 100, mine 123 100]

/-- User 121 stakes, and the three members open minings. -/
def assembled : List Event := joining ++ [initMining 100 122, initMining 100 123]

/-- A stake is 120's in the first history and 122's in the second, delegated to 122 and to 123, extended and partly withdrawn; and
what a member has delegated goes from one to the other, they claim, and are penalized. -/
def arrangements : List Arranged :=
  [.swap (deposit 100 120 500 .oneYear 122) (deposit 100 122 500 .oneYear 123), .same (.tick DAY), .same (distribute 100),
    .same (claim 100 121 131), .swap (deposit 100 123 300 .flex 123) (deposit 100 120 300 .flex 120), .same (.tick DAY),
    .same (distribute 100), .swap (extend 100 120 .oneYear .oneYear (day0 + 105) 500 10 122) (extend 100 122 .oneYear .oneYear (day0 + 105) 500 10 123),
    .one (redelegate 100 120 200 122 123), .one (claim 100 120 130), .two (decrease 100 122 40),
    .same (deposit 100 121 80 .flex 120), .same (.tick DAY), .same (distribute 100),
    .swap (withdraw 100 123 100 123) (withdraw 100 120 100 120),
    .swap (slash 100 123 50 50 none) (slash 100 120 50 50 none), .same (.tick DAY), .same (distribute 100),
    .same (claim 100 121 131), .same (claim 100 120 130)]

/-- The hypotheses of `C114_outside` are met; the staker outside the group is paid, and the members have other stakes. -/
example : ∃ s1 s2, Reachable Demo.env ((run s0 assembled).getD s0) ∧
    (∀ k ∈ theGroup, (hasMining ((run s0 assembled).getD s0).world k fun m => decide (m.accountType = 2)) = true ∧
      0 < (((run s0 assembled).getD s0).world k).lamports) ∧
    RunsWith Demo.env (NoneClosed Demo.env theGroup) ((run s0 assembled).getD s0) (inFirst arrangements) s1 ∧
    RunsWith Demo.env (NoneClosed Demo.env theGroup) ((run s0 assembled).getD s0) (inSecond arrangements) s2 ∧
    UpToGroup Demo.env theGroup ((run s0 assembled).getD s0) ((run s0 assembled).getD s0) (inFirst arrangements)
      (inSecond arrangements) ∧
    0 < totalIn Demo.env (claimedBy Demo.env (mine 121 100)) ((run s0 assembled).getD s0) (inFirst arrangements) ∧
    (hasMining s1.world (mine 120 100) fun m => decide (500 < m.share)) = true ∧
    (hasMining s2.world (mine 120 100) fun m => decide (m.share < 500)) = true := by
  have hmem : (theGroup.all fun k => (hasMining ((run s0 assembled).getD s0).world k fun m => decide (m.accountType = 2)) &&
      decide (0 < (((run s0 assembled).getD s0).world k).lamports)) = true := by decide +kernel
  refine ⟨_, _, after_reachable (by decide +kernel), fun k hk => ?_,
    allPass_sound noneClosedB_sound (by decide +kernel), allPass_sound noneClosedB_sound (by decide +kernel),
    upToGroupB_sound (by decide +kernel), by decide +kernel, by decide +kernel, by decide +kernel⟩
  have := List.all_eq_true.mp hmem k hk
  simpa using this

end Examples

end Verif
