import Verif.Lemmas.Redelegate
import Verif.Lemmas.DemoIncentive
import Verif.Props.Group
import Verif.Props.Pair
/-!
C120: what comes of changing the delegate.
-/

namespace Verif

open Spec

section
variable {env : Env}

theorem redelegate_proper {s : Chain} (hre : Reachable env s) {P k : Key} (hP : P ≠ 0) {x : Mining} (h : Member env s.world P k x) :
    Proper env s.world k x := by
  rcases reachable_mining hre h.1 with hb | ⟨h1, -⟩
  · have := h.2
    rw [hb.pool] at this
    exact absurd this.symm hP
  · exact ⟨h.1, h1⟩

/-- What a change of the delegate costs the staker. -/
theorem redelegate_staker {s t s1 s2 : Chain} {es es' : List Event} {e : Event} {P M O D : Key} {a : Nat} {p p1 : Pool} {m : Mining}
    (hre : Reachable env s) (hp : PoolAt env s.world P p) (hpl : 0 < (s.world P).lamports) (hml : 0 < (s.world M).lamports)
    (hm : MiningAt env s.world M m) (hb : Backed m)
    (h2 : RunsWith env (fun s e => CleanEvent env s e ∧ Redelegates env P M O D a s e) s [e] t)
    (hr1 : RunsWith env (fun s e => CleanEvent env s e ∧ Spares M e) s es s1)
    (hr2 : RunsWith env (fun s e => CleanEvent env s e ∧ Spares M e) t es' s2)
    (hp1 : PoolAt env s1.world P p1) :
    MiningAt env s1.world M m ∧ ∃ m', MiningAt env s2.world M m' ∧ m'.stakeFromOthers = m.stakeFromOthers ∧
      (∀ x, midnight s.now ≤ x → earningOn m' x = earningOn m x) ∧
      owed m' p1.cumulative ≤ owed m p1.cumulative ∧
      owed m p1.cumulative ≤ owed m' p1.cumulative + 10 ^ 16 * (expiredCount m (midnight s.now) + 1) := by
  have hw := reachable_wf hre
  cases h2 with | cons v2 d2 h2 =>
  cases h2
  obtain ⟨p0, p', m0, m', od, od', nd, nd', c⟩ := redelegates hw v2 d2.1 d2.2
  obtain rfl := PoolAt.unique hp c.eff.pool
  obtain rfl := MiningAt.unique hm c.eff.mining
  obtain ⟨h1, -⟩ := changeDelegate_ok.mp c.op
  obtain ⟨-, -, -, -, k5, k6⟩ := refresh_owed c.poolOk.history c.ok h1
  rw [bod_eq_midnight] at k6
  obtain ⟨q, ext, a1, a2, a3, a4⟩ := runs_longer (hr1.weaken fun _ _ h => h.1) hw hp hpl
  obtain rfl := PoolAt.unique hp1 a1
  rw [a2]
  rw [a2] at a3
  obtain ⟨b1, b2⟩ := refreshed_owed a3 a4 c.ok hb h1
  exact ⟨runs_spared (hr1.weaken fun _ _ h => h.2) hm hml, m',
    runs_spared (hr2.weaken fun _ _ h => h.2) c.eff.mining' (by rw [(c.shell M).2.1]; exact hml), k5, k6, b1, b2⟩

/-- **C120**.  Let a history be continued in two ways, the second of which begins with a change of the delegate of `a` tokens from the
mining at `O` to the one at `D`, which are up to date (and whose expirations do not exceed their stakes: see C25).  Both go on in the
same way (but for the staker's affairs, as in C114), while the two delegates do nothing.  Then in the end
* all pools are the same, all minings of everybody else are the same, and everybody else has been paid the same;
* the new delegate is owed more, and the old one less, by exactly `a` times what the distributions since have paid per unit of
  stake: not a fraction of a token is lost between them;
* the staker, if they do nothing either, earns with the same stake and is owed the same, but for the rounding to whole tokens when
  the change brings their mining up to date. -/
theorem C120_between {s t s1 s2 : Chain} {es es' : List Event} {e : Event} {P M O D : Key} {a : Nat} {p : Pool} {x y : Mining}
    (hre : Reachable env s) (hp : PoolAt env s.world P p) (hpl : 0 < (s.world P).lamports) (hml : 0 < (s.world M).lamports) (hol : 0 < (s.world O).lamports)
    (hdl : 0 < (s.world D).lamports) (hx : Member env s.world P O x) (hy : Member env s.world P D y)
    (ux : UpToDate s.now p.cumulative x) (uy : UpToDate s.now p.cumulative y) (bx : Backed x) (by' : Backed y) (hOM : O ≠ M)
    (hDM : D ≠ M)
    (h2 : RunsWith env (fun s e => CleanEvent env s e ∧ Redelegates env P M O D a s e) s [e] t)
    (hr1 : RunsWith env (fun s e => NoneClosed env [M, O, D] s e ∧ Spares O e ∧ Spares D e) s es s1)
    (hr2 : RunsWith env (fun s e => NoneClosed env [M, O, D] s e ∧ Spares O e ∧ Spares D e) t es' s2)
    (hu : UpToGroup env [M, O, D] s t es es') :
    s1.now = s2.now ∧ (∀ Q q, PoolAt env s1.world Q q ↔ PoolAt env s2.world Q q) ∧
      (∀ j, j ∉ [M, O, D] → ∀ z, MiningAt env s1.world j z ↔ MiningAt env s2.world j z) ∧
      (∀ j, j ∉ [M, O, D] → totalIn env (claimedBy env j) s es = totalIn env (claimedBy env j) t es') ∧
      (∀ m p', MiningAt env s.world M m → Backed m → (∀ e ∈ es, Spares M e) → (∀ e ∈ es', Spares M e) → PoolAt env s1.world P p' →
        MiningAt env s1.world M m ∧ ∃ m', MiningAt env s2.world M m' ∧ m'.stakeFromOthers = m.stakeFromOthers ∧
          (∀ x, midnight s.now ≤ x → earningOn m' x = earningOn m x) ∧ owed m' p'.cumulative ≤ owed m p'.cumulative ∧
          owed m p'.cumulative ≤ owed m' p'.cumulative + 10 ^ 16 * (expiredCount m (midnight s.now) + 1)) ∧
      a ≤ x.stakeFromOthers ∧ MiningAt env s1.world O x ∧ MiningAt env s1.world D y ∧
      ∃ x' y', MiningAt env s2.world O x' ∧ MiningAt env s2.world D y' ∧
        x = { x' with stakeFromOthers := x'.stakeFromOthers + a } ∧ y' = { y with stakeFromOthers := y.stakeFromOthers + a } ∧
        ∀ p', PoolAt env s1.world P p' →
          owed x p'.cumulative = owed x' p'.cumulative + a * (lastIndex 0 p'.cumulative - indexBefore p.cumulative s.now) ∧
          owed y' p'.cumulative = owed y p'.cumulative + a * (lastIndex 0 p'.cumulative - indexBefore p.cumulative s.now) := by
  have hw := reachable_wf hre
  cases h2 with | cons v2 d2 h2 =>
  cases h2
  obtain ⟨p0, p', m, m', od, od', nd, nd', c⟩ := redelegates hw v2 d2.1 d2.2
  obtain rfl := PoolAt.unique hp c.eff.pool
  rcases c.eff.old with ⟨h0, -⟩ | ⟨-, -, x0, x', rfl, rfl, hxx⟩
  · exact absurd h0 hOM
  rcases c.eff.new with ⟨h0, -⟩ | ⟨-, -, y0, y', rfl, rfl, hyy⟩
  · exact absurd h0 hDM
  obtain ⟨rfl, hx'⟩ := hxx x hx.1
  obtain ⟨rfl, hy'⟩ := hyy y hy.1
  obtain ⟨-, hm', ha, hx0, hy0⟩ := moved_between c.poolOk (c.oldOk _ rfl) (c.newOk _ rfl) ux uy c.op
  have hK : ∀ k ∈ [M, O, D], 0 < (s.world k).lamports ∧ ∃ m, Proper env s.world k m := by
    intro k hk
    simp only [List.mem_cons, List.not_mem_nil, or_false] at hk
    rcases hk with rfl | rfl | rfl
    · exact ⟨hml, m, c.eff.mining, c.init⟩
    · exact ⟨hol, x, redelegate_proper hre c.pne hx⟩
    · exact ⟨hdl, y, redelegate_proper hre c.pne hy⟩
  obtain ⟨accs, d, he, e1, e2, e3, e4, e5⟩ := d2.2
  have among : AmongThem [M, O, D] e := by
    subst he
    refine ⟨fun j hj => ?_, ?_, ?_⟩
    · rw [e3, e4, e5] at hj
      simp only [Option.some.injEq] at hj
      rcases hj with rfl | rfl | rfl <;> simp
    · rw [e3, e4]; exact fun h => hOM (Option.some.inj h).symm
    · rw [e3, e5]; exact fun h => hDM (Option.some.inj h).symm
  have none' : NoneClosed env [M, O, D] s e := by
    refine ⟨d2.1, ?_⟩
    subst he
    exact fun _ _ _ _ h => by cases h
  obtain ⟨g1, -, g3, g4, g5, -⟩ := C114_outside hre hK (hr1.weaken fun _ _ h => h.1)
    (.cons v2 none' (hr2.weaken fun _ _ h => h.1)) (.second among hu)
  refine ⟨g1, g3, g4, fun j hj => ?_, fun n q n1 n2 n3 n4 n5 => ?_, ha, runs_spared (hr1.weaken fun _ _ h => h.2.1) hx.1 hol,
    runs_spared (hr1.weaken fun _ _ h => h.2.2) hy.1 hdl, x', y',
    runs_spared (hr2.weaken fun _ _ h => h.2.1) hx' (by rw [(c.shell O).2.1]; exact hol),
    runs_spared (hr2.weaken fun _ _ h => h.2.2) hy' (by rw [(c.shell D).2.1]; exact hdl), ?_, hy0, fun q hq => ?_⟩
  · have : claimedBy env j s e = 0 := by subst he; simp only [claimedBy]; split <;> rfl
    rw [g5 j hj]
    simp only [totalIn, this, Nat.zero_add]
  · exact redelegate_staker hre hp hpl hml n1 n2 (.cons v2 d2 (.nil _))
      ((runs_also hr1 n3).weaken fun _ _ h => ⟨h.1.1.1, h.2⟩) ((runs_also hr2 n4).weaken fun _ _ h => ⟨h.1.1.1, h.2⟩) n5
  · subst hx0
    have : x.stakeFromOthers - a + a = x.stakeFromOthers := by omega
    simp only [this]
  · have hc : History q.cumulative :=
      (poolAt_good (wf_runs hw (fun _ _ h => h.1.1) hr1) hq).ok.history
    have hxe : x = { x' with stakeFromOthers := x'.stakeFromOthers + a } := by
      subst hx0
      have : x.stakeFromOthers - a + a = x.stakeFromOthers := by omega
      simp only [this]
    have bx' : Backed x' := by subst hx0; exact bx
    have ix : x'.index = indexBefore p.cumulative s.now := by subst hx0; exact ux.index
    constructor
    · conv => lhs; rw [hxe]
      rw [owed_lent hc bx' a, ix]
    · rw [hy0, owed_lent hc by' a, uy.index]

/-- C120: beginning to delegate.  Let a history (orderly for the pool: see `Orderly`) be continued in two ways, the second of which
begins with the delegation of `a` tokens, undelegated so far, of the owner of the mining at `M` to the mining at `D`, both of which
are up to date.  Both go on with the same events (only what other programs do may differ), in which staker and delegate do nothing.
Then in the end staker and delegate together are owed at least as much with the delegation as without, except for roundings, and so
is the delegate alone; the staker alone, and every other mining of the pool that has done nothing, is owed at most as much. -/
theorem C120_begun (hi : env.PdaInjective) {s0 s t s1 s2 : Chain} {es0 es es' : List Event} {e : Event} {P M D V : Key} {a : Nat}
    {p p1 p2 : Pool} {m y : Mining} (hg : Genesis env s0)
    (hr0 : RunsWith env (Orderly env P V) s0 es0 s) (hp : PoolAt env s.world P p)
    (hV : env.findVault P p.rewardMint = some (V, p.bump)) (hpl : 0 < (s.world P).lamports)
    (hml : 0 < (s.world M).lamports) (hdl : 0 < (s.world D).lamports) (hm : Member env s.world P M m)
    (hy : Member env s.world P D y) (um : UpToDate s.now p.cumulative m) (uy : UpToDate s.now p.cumulative y) (hMD : M ≠ D)
    (h2 : RunsWith env (fun s e => CleanEvent env s e ∧ Redelegates env P M M D a s e) s [e] t)
    (hr1 : RunsWith env (fun s e => Orderly env P V s e ∧ RoomInPool env P s e ∧ Spares M e ∧ Spares D e) s es s1)
    (hr2 : RunsWith env (fun s e => CleanEvent env s e ∧ RoomInPool env P s e ∧ Spares M e ∧ Spares D e) t es' s2)
    (hal : Alike env SameEvent s t es es') (hn : s1.now < 2 ^ 64)
    (hp1' : PoolAt env s1.world P p1) (hp2' : PoolAt env s2.world P p2)
    (hroom1 : p1.cumulative.length < env.caps.index) (hroom2 : p2.cumulative.length < env.caps.index) :
    (MiningAt env s1.world M m ∧ MiningAt env s1.world D y) ∧ MiningAt env s2.world M m ∧ ∃ y', MiningAt env s2.world D y' ∧
      owed m p1.cumulative + owed y p1.cumulative ≤ owed m p2.cumulative + owed y' p2.cumulative +
        (totalIn env (takesPart env P m) t es' + totalIn env (takesPart env P y') t es') ∧
      owed y p1.cumulative ≤ owed y' p2.cumulative + totalIn env (takesPart env P y') t es' ∧
      owed m p2.cumulative ≤ owed m p1.cumulative ∧
      ∀ K x, K ≠ M → K ≠ D → Member env s.world P K x → 0 < (s.world K).lamports → (∀ e ∈ es, Spares K e) → (∀ e ∈ es', Spares K e) →
        MiningAt env s1.world K x ∧ MiningAt env s2.world K x ∧ owed x p2.cumulative ≤ owed x p1.cumulative := by
  have hre : Reachable env s := ⟨s0, es0, hg, hr0.weaken fun _ _ h => h.clean⟩
  have hw := reachable_wf hre
  cases h2 with | cons v2 d2 h2 =>
  cases h2
  obtain ⟨p0, p', m0, m', od, od', nd, nd', c⟩ := redelegates hw v2 d2.1 d2.2
  obtain rfl := PoolAt.unique hp c.eff.pool
  obtain rfl := MiningAt.unique hm.1 c.eff.mining
  rcases c.eff.old with ⟨-, rfl, rfl⟩ | ⟨h0, -⟩
  case inr => exact absurd rfl h0
  rcases c.eff.new with ⟨h0, -⟩ | ⟨-, -, y0, y', rfl, rfl, hyy⟩
  · exact absurd h0.symm hMD
  obtain ⟨rfl, hy'⟩ := hyy y hy.1
  obtain ⟨e1, rfl, rfl⟩ := moved_to c.poolOk c.ok (c.newOk _ rfl) um uy c.op
  have hq2 := c.eff.pool'
  rw [e1] at hq2
  obtain ⟨g1, g2, g3, g4, g5, g6⟩ := lent_or_not hi hg hr0 (hre.step v2 d2.1) c.now.symm hp hq2 hV
    (fun k => ((c.shell k).2.1).symm) hpl hml hdl hMD hm c.eff.mining' hy hy' um.index uy.index
    (fun k k1 k2 k3 => (c.eff.frame k k1 k2 k2 k3).symm) hr1 hr2 hal hn hp1' hp2' hroom1 hroom2
  exact ⟨g1, g2.1, _, g2.2, g3, g4, g5, g6⟩

/-- C120: ending a delegation, the other way round.  The first way begins with taking back a delegation of `a` tokens of the owner of
the mining at `M` from the mining at `D`, in the second it stays. -/
theorem C120_ended (hi : env.PdaInjective) {s0 s t s1 s2 : Chain} {es0 es es' : List Event} {e : Event} {P M D V : Key} {a : Nat}
    {p p1 p2 : Pool} {m y : Mining} (hg : Genesis env s0)
    (hr0 : RunsWith env (Orderly env P V) s0 es0 s) (hp : PoolAt env s.world P p)
    (hV : env.findVault P p.rewardMint = some (V, p.bump)) (hpl : 0 < (s.world P).lamports)
    (hml : 0 < (s.world M).lamports) (hdl : 0 < (s.world D).lamports) (hm : Member env s.world P M m)
    (hy : Member env s.world P D y) (um : UpToDate s.now p.cumulative m) (uy : UpToDate s.now p.cumulative y) (hMD : M ≠ D)
    (h1 : RunsWith env (fun s e => Orderly env P V s e ∧ Redelegates env P M D M a s e) s [e] t)
    (hr1 : RunsWith env (fun s e => Orderly env P V s e ∧ RoomInPool env P s e ∧ Spares M e ∧ Spares D e) t es s1)
    (hr2 : RunsWith env (fun s e => CleanEvent env s e ∧ RoomInPool env P s e ∧ Spares M e ∧ Spares D e) s es' s2)
    (hal : Alike env SameEvent t s es es') (hn : s1.now < 2 ^ 64)
    (hp1' : PoolAt env s1.world P p1) (hp2' : PoolAt env s2.world P p2)
    (hroom1 : p1.cumulative.length < env.caps.index) (hroom2 : p2.cumulative.length < env.caps.index) :
    MiningAt env s1.world M m ∧ (MiningAt env s2.world M m ∧ MiningAt env s2.world D y) ∧ ∃ y', MiningAt env s1.world D y' ∧
      owed m p1.cumulative + owed y' p1.cumulative ≤ owed m p2.cumulative + owed y p2.cumulative +
        (totalIn env (takesPart env P m) s es' + totalIn env (takesPart env P y) s es') ∧
      owed y' p1.cumulative ≤ owed y p2.cumulative + totalIn env (takesPart env P y) s es' ∧
      owed m p2.cumulative ≤ owed m p1.cumulative ∧
      ∀ K x, K ≠ M → K ≠ D → Member env s.world P K x → 0 < (s.world K).lamports → (∀ e ∈ es, Spares K e) → (∀ e ∈ es', Spares K e) →
        MiningAt env s1.world K x ∧ MiningAt env s2.world K x ∧ owed x p2.cumulative ≤ owed x p1.cumulative := by
  have hre : Reachable env s := ⟨s0, es0, hg, hr0.weaken fun _ _ h => h.clean⟩
  have hw := reachable_wf hre
  cases h1 with | cons v1 d1 h1 =>
  cases h1
  obtain ⟨p0, p', m0, m', od, od', nd, nd', c⟩ := redelegates hw v1 d1.1.clean d1.2
  obtain rfl := PoolAt.unique hp c.eff.pool
  obtain rfl := MiningAt.unique hm.1 c.eff.mining
  rcases c.eff.new with ⟨-, rfl, rfl⟩ | ⟨h0, -⟩
  case inr => exact absurd rfl h0
  rcases c.eff.old with ⟨h0, -⟩ | ⟨-, -, y0, y', rfl, rfl, hyy⟩
  · exact absurd h0.symm hMD
  obtain ⟨rfl, hy'⟩ := hyy y hy.1
  obtain ⟨e1, rfl, e2⟩ := moved_back c.poolOk c.ok (c.oldOk _ rfl) um uy c.op
  have hq2 := hp
  rw [e1] at hq2
  have hy2 := hy.1
  rw [e2] at hy2
  have hcum : p'.cumulative = p.cumulative := by rw [e1]
  have hyp : y'.rewardPool = P := by rw [← hy.2, e2]
  have hyi : y'.index = y.index := by rw [e2]
  have hro : RunsWith env (Orderly env P V) s0 (es0 ++ [e]) (s.apply env e) := hr0.append (.cons v1 d1.1 (.nil _))
  have lamP : ∀ k, 0 < (s.world k).lamports → 0 < ((s.apply env e).world k).lamports := fun k h => by
    rw [(c.shell k).2.1]; exact h
  have hV' : env.findVault P p'.rewardMint = some (V, p'.bump) := by rw [e1] at hV; exact hV
  obtain ⟨g1, g2, g3, g4, g5, g6⟩ := lent_or_not hi hg hro hre c.now c.eff.pool' hq2 hV'
    (fun k => (c.shell k).2.1) (lamP P hpl) (lamP M hml) (lamP D hdl) hMD ⟨c.eff.mining', hm.2⟩ hm.1 ⟨hy', hyp⟩ hy2
    (by rw [um.index, hcum, c.now]) (by rw [hyi, uy.index, hcum, c.now])
    (fun k k1 k2 k3 => c.eff.frame k k1 k2 k3 k2) hr1 hr2 hal hn hp1' hp2' hroom1 hroom2
  rw [← e2] at g2 g3 g4
  refine ⟨g1.1, g2, y', g1.2, g3, g4, g5, fun K x k1 k2 k3 k4 k5 k6 => g6 K x k1 k2 ?_ (lamP K k4) k5 k6⟩
  have hKP : K ≠ P := by
    rintro rfl
    have e1 := k3.1.2
    have e2 := hp.2
    rw [e1] at e2
    cases e2
  exact ⟨(miningAt_congr (c.eff.frame K hKP k1 k2 k1)).mpr k3.1, k3.2⟩

end

section Examples

open Demo

def redelegatesB (P M O D : Key) (a : Nat) (s : Chain) (e : Event) : Bool :=
  okEvent s e && match e with
    | .ix accs (.changeDelegate b d) => decide (b = a) && decide (poolArg accs (.changeDelegate b d) = some P) &&
        decide (miningArg accs (.changeDelegate b d) = some M) && decide (oldDelegateArg accs (.changeDelegate b d) = some O) &&
        decide (delegateArg accs (.changeDelegate b d) = some D)
    | _ => false

theorem redelegatesB_sound {P M O D : Key} {a : Nat} {s : Chain} {e : Event} (h : redelegatesB P M O D a s e = true) :
    e.Valid Demo.env s ∧ CleanEvent Demo.env s e ∧ Redelegates Demo.env P M O D a s e := by
  simp only [redelegatesB, Bool.and_eq_true] at h
  obtain ⟨h1, h2⟩ := h
  refine ⟨(okEvent_sound h1).1, (okEvent_sound h1).2, ?_⟩
  split at h2
  · simp only [Bool.and_eq_true, decide_eq_true_eq] at h2
    obtain ⟨⟨⟨⟨rfl, h3⟩, h4⟩, h5⟩, h6⟩ := h2
    obtain ⟨r, hr⟩ := exec_of_ok h1
    exact ⟨_, _, rfl, by simp [succeeded, hr], h3, h4, h5, h6⟩
  · cases h2

/-- Users 120 and 121 have staked, and both are up to date. -/
def partners : List Event := threeBefore ++ [deposit 100 120 400 .sixMonths 120, claim 100 121 131]

def beforePartners : Chain := (orderlyRun 100 (vaultOf 100 101) s0 partners).getD s0

/-- User 120 delegates 300 tokens to user 121. -/
def lends : Event := redelegate 100 120 300 120 121

/-- The hypotheses of `C120_begun` are met; the two are owed more than 15 tokens more together. -/
example : ∃ es0 p m y t p1 p2, Genesis Demo.env s0 ∧
    RunsWith Demo.env (Orderly Demo.env 100 (vaultOf 100 101)) s0 es0 beforePartners ∧ PoolAt Demo.env beforePartners.world 100 p ∧
    Demo.env.findVault 100 p.rewardMint = some (vaultOf 100 101, p.bump) ∧
    Member Demo.env beforePartners.world 100 (mine 120 100) m ∧ Member Demo.env beforePartners.world 100 (mine 121 100) y ∧
    UpToDate beforePartners.now p.cumulative m ∧ UpToDate beforePartners.now p.cumulative y ∧
    RunsWith Demo.env (fun s e => CleanEvent Demo.env s e ∧ Redelegates Demo.env 100 (mine 120 100) (mine 120 100) (mine 121 100) 300 s e)
      beforePartners [lends] t ∧
    RunsWith Demo.env (fun s e => Orderly Demo.env 100 (vaultOf 100 101) s e ∧ RoomInPool Demo.env 100 s e ∧
      Spares (mine 120 100) e ∧ Spares (mine 121 100) e) beforePartners afterPair (endOf beforePartners afterPair) ∧
    RunsWith Demo.env (fun s e => CleanEvent Demo.env s e ∧ RoomInPool Demo.env 100 s e ∧ Spares (mine 120 100) e ∧
      Spares (mine 121 100) e) t afterPair (endOf t afterPair) ∧
    Alike Demo.env SameEvent beforePartners t afterPair afterPair ∧ (endOf beforePartners afterPair).now < 2 ^ 64 ∧
    PoolAt Demo.env (endOf beforePartners afterPair).world 100 p1 ∧ PoolAt Demo.env (endOf t afterPair).world 100 p2 ∧
    0 < (beforePartners.world 100).lamports ∧ 0 < (beforePartners.world (mine 120 100)).lamports ∧
    0 < (beforePartners.world (mine 121 100)).lamports ∧
    p1.cumulative.length < Demo.env.caps.index ∧ p2.cumulative.length < Demo.env.caps.index ∧
    owedAt (endOf beforePartners afterPair) 100 (mine 120 100) + owedAt (endOf beforePartners afterPair) 100 (mine 121 100) +
      10 ^ 16 * 15 < owedAt (endOf t afterPair) 100 (mine 120 100) + owedAt (endOf t afterPair) 100 (mine 121 100) := by
  obtain ⟨p, y, hp, hV, hy, hu⟩ := readyB_sound (s := beforePartners) (P := 100) (V := vaultOf 100 101) (D := mine 121 100)
    (by decide +kernel)
  obtain ⟨p', m, hp', -, hm, um⟩ := readyB_sound (s := beforePartners) (P := 100) (V := vaultOf 100 101) (D := mine 120 100)
    (by decide +kernel)
  obtain rfl := PoolAt.unique hp hp'
  have d2 : redelegatesB 100 (mine 120 100) (mine 120 100) (mine 121 100) 300 beforePartners lends = true := by decide +kernel
  have r1 : allPass (sparesTwoB (tidyB 100 (vaultOf 100 101) (mine 120 100)) (mine 121 100)) beforePartners afterPair = true := by
    decide +kernel
  have r2 : allPass (sparesTwoB (cleanB 100 (mine 120 100)) (mine 121 100)) (beforePartners.apply Demo.env lends) afterPair = true := by
    decide +kernel
  obtain ⟨p1, hp1, hl1⟩ := hasPool_sound (w := (endOf beforePartners afterPair).world) (k := 100)
    (f := fun p => decide (p.cumulative.length < Demo.env.caps.index)) (by decide +kernel)
  obtain ⟨p2, hp2, hl2⟩ := hasPool_sound (w := (endOf (beforePartners.apply Demo.env lends) afterPair).world) (k := 100)
    (f := fun p => decide (p.cumulative.length < Demo.env.caps.index)) (by decide +kernel)
  exact ⟨_, p, m, y, _, p1, p2, s0_genesis, orderlyRun_eq (es := partners) (by decide +kernel), hp, hV, hm, hy, um, hu,
    .cons (redelegatesB_sound d2).1 (redelegatesB_sound d2).2 (.nil _),
    allPass_sound sparesTwoB_tidy r1, allPass_sound sparesTwoB_clean r2,
    allPass_alike (fun s e h => by simp only [sparesTwoB, Bool.and_eq_true] at h; exact tidyB_ok _ _ h.1)
      (fun s e h => by simp only [sparesTwoB, Bool.and_eq_true] at h; exact cleanB_ok _ _ h.1) r1 r2,
    by decide +kernel, hp1, hp2, by decide +kernel, by decide +kernel, by decide +kernel, of_decide_eq_true hl1,
    of_decide_eq_true hl2, by decide +kernel⟩

/-- User 120 has delegated 300 tokens to user 121. -/
def lent : List Event := partners ++ [lends]

def afterLending : Chain := (orderlyRun 100 (vaultOf 100 101) s0 lent).getD s0

/-- User 120 takes the delegation back. -/
def takesBack : Event := redelegate 100 120 300 121 120

/-- The hypotheses of `C120_ended` are met; the two are owed more than 15 tokens less together. -/
example : ∃ es0 p m y t p1 p2, Genesis Demo.env s0 ∧
    RunsWith Demo.env (Orderly Demo.env 100 (vaultOf 100 101)) s0 es0 afterLending ∧ PoolAt Demo.env afterLending.world 100 p ∧
    Demo.env.findVault 100 p.rewardMint = some (vaultOf 100 101, p.bump) ∧
    Member Demo.env afterLending.world 100 (mine 120 100) m ∧ Member Demo.env afterLending.world 100 (mine 121 100) y ∧
    UpToDate afterLending.now p.cumulative m ∧ UpToDate afterLending.now p.cumulative y ∧
    RunsWith Demo.env (fun s e => Orderly Demo.env 100 (vaultOf 100 101) s e ∧
      Redelegates Demo.env 100 (mine 120 100) (mine 121 100) (mine 120 100) 300 s e) afterLending [takesBack] t ∧
    RunsWith Demo.env (fun s e => Orderly Demo.env 100 (vaultOf 100 101) s e ∧ RoomInPool Demo.env 100 s e ∧
      Spares (mine 120 100) e ∧ Spares (mine 121 100) e) t afterPair (endOf t afterPair) ∧
    RunsWith Demo.env (fun s e => CleanEvent Demo.env s e ∧ RoomInPool Demo.env 100 s e ∧ Spares (mine 120 100) e ∧
      Spares (mine 121 100) e) afterLending afterPair (endOf afterLending afterPair) ∧
    Alike Demo.env SameEvent t afterLending afterPair afterPair ∧ (endOf t afterPair).now < 2 ^ 64 ∧
    PoolAt Demo.env (endOf t afterPair).world 100 p1 ∧ PoolAt Demo.env (endOf afterLending afterPair).world 100 p2 ∧
    0 < (afterLending.world 100).lamports ∧ 0 < (afterLending.world (mine 120 100)).lamports ∧
    0 < (afterLending.world (mine 121 100)).lamports ∧
    p1.cumulative.length < Demo.env.caps.index ∧ p2.cumulative.length < Demo.env.caps.index ∧
    owedAt (endOf t afterPair) 100 (mine 120 100) + owedAt (endOf t afterPair) 100 (mine 121 100) + 10 ^ 16 * 15 <
      owedAt (endOf afterLending afterPair) 100 (mine 120 100) + owedAt (endOf afterLending afterPair) 100 (mine 121 100) := by
  obtain ⟨p, y, hp, hV, hy, hu⟩ := readyB_sound (s := afterLending) (P := 100) (V := vaultOf 100 101) (D := mine 121 100)
    (by decide +kernel)
  obtain ⟨p', m, hp', -, hm, um⟩ := readyB_sound (s := afterLending) (P := 100) (V := vaultOf 100 101) (D := mine 120 100)
    (by decide +kernel)
  obtain rfl := PoolAt.unique hp hp'
  have o1 : orderlyB 100 (vaultOf 100 101) afterLending takesBack = true := by decide +kernel
  have d1 : redelegatesB 100 (mine 120 100) (mine 121 100) (mine 120 100) 300 afterLending takesBack = true := by decide +kernel
  have r1 : allPass (sparesTwoB (tidyB 100 (vaultOf 100 101) (mine 120 100)) (mine 121 100)) (afterLending.apply Demo.env takesBack)
      afterPair = true := by
    decide +kernel
  have r2 : allPass (sparesTwoB (cleanB 100 (mine 120 100)) (mine 121 100)) afterLending afterPair = true := by
    decide +kernel
  obtain ⟨p1, hp1, hl1⟩ := hasPool_sound (w := (endOf (afterLending.apply Demo.env takesBack) afterPair).world) (k := 100)
    (f := fun p => decide (p.cumulative.length < Demo.env.caps.index)) (by decide +kernel)
  obtain ⟨p2, hp2, hl2⟩ := hasPool_sound (w := (endOf afterLending afterPair).world) (k := 100)
    (f := fun p => decide (p.cumulative.length < Demo.env.caps.index)) (by decide +kernel)
  exact ⟨_, p, m, y, _, p1, p2, s0_genesis, orderlyRun_eq (es := lent) (by decide +kernel), hp, hV, hm, hy, um, hu,
    .cons (redelegatesB_sound d1).1 ⟨(orderlyB_sound o1).2, (redelegatesB_sound d1).2.2⟩ (.nil _),
    allPass_sound sparesTwoB_tidy r1, allPass_sound sparesTwoB_clean r2,
    allPass_alike (fun s e h => by simp only [sparesTwoB, Bool.and_eq_true] at h; exact tidyB_ok _ _ h.1)
      (fun s e h => by simp only [sparesTwoB, Bool.and_eq_true] at h; exact cleanB_ok _ _ h.1) r1 r2,
    by decide +kernel, hp1, hp2, by decide +kernel, by decide +kernel, by decide +kernel, of_decide_eq_true hl1,
    of_decide_eq_true hl2, by decide +kernel⟩

/-- User 122 is up to date, too. -/
def allSettled : List Event := lent ++ [deposit 100 122 1 .flex 122]

def afterAllSettled : Chain := (orderlyRun 100 (vaultOf 100 101) s0 allSettled).getD s0

/-- User 120 moves the delegation from user 121 to user 122. -/
def movesOn : Event := redelegate 100 120 300 121 122

/-- User 123 joins and leaves; user 120 claims in the second history only. -/
def whileMoved : List Arranged :=
  [.same (.tick DAY), .same (distribute 100), .same (.tick 10), .same (initMining 100 123),
    .same (deposit 100 123 700 .threeMonths 123), .two (claim 100 120 130), .same (withdraw 100 123 100 123), .same (.tick DAY),
    .same (distribute 100), .same (.tick (3 * DAY)), .same (distribute 100)]

def noneClosedSparesB (K : List Key) (j k : Key) (s : Chain) (e : Event) : Bool :=
  noneClosedB K s e && sparesOneB j e && sparesOneB k e

theorem noneClosedSparesB_sound {K : List Key} {j k : Key} (s : Chain) (e : Event) (h : noneClosedSparesB K j k s e = true) :
    e.Valid Demo.env s ∧ (NoneClosed Demo.env K s e ∧ Spares j e ∧ Spares k e) := by
  simp only [noneClosedSparesB, Bool.and_eq_true] at h
  obtain ⟨h1, h2⟩ := noneClosedB_sound s e h.1.1
  exact ⟨h1, h2, sparesOneB_sound h.1.2, sparesOneB_sound h.2⟩

/-- The hypotheses of `C120_between` are met; the new delegate is owed more than 100 tokens more. -/
example : ∃ p x y t, Reachable Demo.env afterAllSettled ∧ PoolAt Demo.env afterAllSettled.world 100 p ∧
    0 < (afterAllSettled.world 100).lamports ∧ 0 < (afterAllSettled.world (mine 120 100)).lamports ∧
    0 < (afterAllSettled.world (mine 121 100)).lamports ∧ 0 < (afterAllSettled.world (mine 122 100)).lamports ∧
    Member Demo.env afterAllSettled.world 100 (mine 121 100) x ∧ Member Demo.env afterAllSettled.world 100 (mine 122 100) y ∧
    UpToDate afterAllSettled.now p.cumulative x ∧ UpToDate afterAllSettled.now p.cumulative y ∧ Backed x ∧ Backed y ∧
    RunsWith Demo.env (fun s e => CleanEvent Demo.env s e ∧ Redelegates Demo.env 100 (mine 120 100) (mine 121 100) (mine 122 100) 300 s e)
      afterAllSettled [movesOn] t ∧
    RunsWith Demo.env (fun s e => NoneClosed Demo.env [mine 120 100, mine 121 100, mine 122 100] s e ∧ Spares (mine 121 100) e ∧
      Spares (mine 122 100) e) afterAllSettled (inFirst whileMoved) (endOf afterAllSettled (inFirst whileMoved)) ∧
    RunsWith Demo.env (fun s e => NoneClosed Demo.env [mine 120 100, mine 121 100, mine 122 100] s e ∧ Spares (mine 121 100) e ∧
      Spares (mine 122 100) e) t (inSecond whileMoved) (endOf t (inSecond whileMoved)) ∧
    UpToGroup Demo.env [mine 120 100, mine 121 100, mine 122 100] afterAllSettled t (inFirst whileMoved) (inSecond whileMoved) ∧
    owedAt (endOf afterAllSettled (inFirst whileMoved)) 100 (mine 122 100) + 10 ^ 16 * 100 <
      owedAt (endOf t (inSecond whileMoved)) 100 (mine 122 100) := by
  obtain ⟨p, x, hp, -, hx, ux⟩ := readyB_sound (s := afterAllSettled) (P := 100) (V := vaultOf 100 101) (D := mine 121 100)
    (by decide +kernel)
  obtain ⟨p', y, hp', -, hy, uy⟩ := readyB_sound (s := afterAllSettled) (P := 100) (V := vaultOf 100 101) (D := mine 122 100)
    (by decide +kernel)
  obtain rfl := PoolAt.unique hp hp'
  obtain ⟨x', hx', bx⟩ := hasMining_sound (w := afterAllSettled.world) (k := mine 121 100)
    (f := fun m => decide (total m.diffs ≤ m.share)) (by decide +kernel)
  obtain ⟨y', hy', by'⟩ := hasMining_sound (w := afterAllSettled.world) (k := mine 122 100)
    (f := fun m => decide (total m.diffs ≤ m.share)) (by decide +kernel)
  obtain rfl := MiningAt.unique hx.1 hx'
  obtain rfl := MiningAt.unique hy.1 hy'
  have d2 : redelegatesB 100 (mine 120 100) (mine 121 100) (mine 122 100) 300 afterAllSettled movesOn = true := by decide +kernel
  have hr : RunsWith Demo.env (Orderly Demo.env 100 (vaultOf 100 101)) s0 allSettled afterAllSettled :=
    orderlyRun_eq (es := allSettled) (by decide +kernel)
  exact ⟨p, x, y, afterAllSettled.apply Demo.env movesOn, ⟨s0, _, s0_genesis, hr.weaken fun _ _ h => h.clean⟩, hp,
    by decide +kernel, by decide +kernel, by decide +kernel, by decide +kernel, hx, hy, ux, uy, show total x.diffs ≤ x.share from of_decide_eq_true bx,
    show total y.diffs ≤ y.share from of_decide_eq_true by', .cons (redelegatesB_sound d2).1 (redelegatesB_sound d2).2 (.nil _),
    allPass_sound noneClosedSparesB_sound (by decide +kernel), allPass_sound noneClosedSparesB_sound (by decide +kernel),
    upToGroupB_sound (by decide +kernel), by decide +kernel⟩

end Examples

end Verif
