import Verif.Lemmas.Pair
import Verif.Spec.Redelegate
/-!
A change of the delegate and what comes of it.
-/

namespace Verif

open Spec

variable {env : Env}

/-- What a change of the delegate does. -/
structure Redelegated (env : Env) (P M O D : Key) (a : Nat) (s t : Chain) (p p' : Pool) (m m' : Mining)
    (od od' nd nd' : Option Mining) : Prop where
  now : t.now = s.now
  op : p.changeDelegate s.now m nd od a = .ok (p', m', nd', od')
  shell : ∀ k, (t.world k).owner = (s.world k).owner ∧ (t.world k).lamports = (s.world k).lamports ∧
    (t.world k).len = (s.world k).len
  eff : RedelegateEffect env s.world t.world P M O D p p' m m' od od' nd nd'
  poolOk : PoolOk s.now p
  ok : MiningOk m
  newOk : ∀ x, nd = some x → MiningOk x
  oldOk : ∀ x, od = some x → MiningOk x
  init : m.accountType = 2
  inPool : m.rewardPool = P
  pne : P ≠ 0
  ne : D ≠ O

theorem redelegates {P M O D : Key} {a : Nat} {s : Chain} {e : Event} (hw : Wf env s.now s.world) (hv : e.Valid env s)
    (hc : CleanEvent env s e) (h : Redelegates env P M O D a s e) :
    ∃ p p' m m' od od' nd nd', Redelegated env P M O D a s (s.apply env e) p p' m m' od od' nd nd' := by
  obtain ⟨accs, d, rfl, h1, h2, h3, h4, h5⟩ := h
  unfold succeeded at h1
  split at h1
  · rename_i r hx
    obtain ⟨w', ret⟩ := r
    rw [apply_ix_ok hx]
    have step := step_of_exec (i := .changeDelegate a d) hw hv hc hx
    cases step with
    | stake _ op => exact op.elim
    | @redelegate a' nd P' M' A O' Old New rest p p' m m' od od' dn dn' accs_eq signed op chk newDel oldOk oldAt ne quiet same sfo
        ok' sameNew sameOld neP eff shell =>
      subst accs_eq
      obtain rfl : P'.key = P := Option.some.inj h2
      obtain rfl : M'.key = M := Option.some.inj h3
      obtain rfl : Old.key = O := Option.some.inj h4
      obtain rfl : New.key = D := Option.some.inj h5
      exact ⟨p, p', m, m', od, od', dn, dn', rfl, op, fun k => ⟨(shell k).1, (shell k).2.1, (shell k).2.2.1⟩, eff, chk.good.ok,
        chk.miningOk, fun x hx => (newDel x hx).ok, oldOk, chk.init.type, chk.inPool, chk.inPool ▸ chk.init.pool, ne⟩
  · cases h1

/-- Changing the delegated stake of a mining that is up to date changes nothing else. -/
theorem refresh_settled {now n : Nat} {cum : SMap} (hc : History cum) {x x' : Mining} (hx : MiningOk x) (hu : UpToDate now cum x)
    (h : ({ x with stakeFromOthers := n } : Mining).refreshRewards now cum = .ok x') : x' = { x with stakeFromOthers := n } := by
  have hs : Sorted ({ x with stakeFromOthers := n } : Mining).diffs := hx.sorted
  have hfix : ({ x with stakeFromOthers := n } : Mining).refreshRewards now cum = .ok { x with stakeFromOthers := n } :=
    refresh_fixed hc ⟨hx.sorted, hx.aligned⟩ hu.index hu.locks ((refresh_iff hc hs).mp h).1
  exact Except.ok.inj (h.symm.trans hfix)

/-- What a change between two other minings that are up to date does. -/
theorem moved_between {now a : Nat} {p p' : Pool} {m m' x x' y y' : Mining} (hp : PoolOk now p) (hx : MiningOk x) (hy : MiningOk y)
    (ux : UpToDate now p.cumulative x) (uy : UpToDate now p.cumulative y)
    (h : p.changeDelegate now m (some y) (some x) a = .ok (p', m', some y', some x')) :
    p' = p ∧ m.refreshRewards now p.cumulative = .ok m' ∧ a ≤ x.stakeFromOthers ∧
      x' = { x with stakeFromOthers := x.stakeFromOthers - a } ∧ y' = { y with stakeFromOthers := y.stakeFromOthers + a } := by
  obtain ⟨h1, p1, h2, h3⟩ := changeDelegate_ok.mp h
  rw [withDelegate_some] at h2 h3
  obtain ⟨x1, h2, e2⟩ := h2
  obtain ⟨y1, h3, e3⟩ := h3
  obtain rfl := Option.some.inj e2
  obtain rfl := Option.some.inj e3
  rw [delegateSub_ok] at h2
  obtain ⟨k1, k2, k3, rfl⟩ := h2
  rw [delegateAdd_ok] at h3
  obtain ⟨k4, k5, k6, rfl⟩ := h3
  refine ⟨?_, h1, k1, refresh_settled hp.history hx ux k3, refresh_settled hp.history hy uy k6⟩
  have : p.totalShare - a + a = p.totalShare := by omega
  simp only [this]

/-- What beginning to delegate does. -/
theorem moved_to {now a : Nat} {p p' : Pool} {m m' y y' : Mining} (hp : PoolOk now p) (hm : MiningOk m) (hy : MiningOk y)
    (um : UpToDate now p.cumulative m) (uy : UpToDate now p.cumulative y)
    (h : p.changeDelegate now m (some y) none a = .ok (p', m', some y', none)) :
    p' = { p with totalShare := p.totalShare + a } ∧ m' = m ∧ y' = { y with stakeFromOthers := y.stakeFromOthers + a } := by
  obtain ⟨h1, p1, h2, h3⟩ := changeDelegate_ok.mp h
  rw [withDelegate_none] at h2
  obtain ⟨rfl, -⟩ := h2
  rw [withDelegate_some] at h3
  obtain ⟨y1, h3, e3⟩ := h3
  obtain rfl := Option.some.inj e3
  rw [delegateAdd_ok] at h3
  obtain ⟨k4, k5, k6, rfl⟩ := h3
  exact ⟨rfl, refresh_settled (n := m.stakeFromOthers) hp.history hm um h1, refresh_settled hp.history hy uy k6⟩

/-- What ending a delegation does. -/
theorem moved_back {now a : Nat} {p p' : Pool} {m m' x x' : Mining} (hp : PoolOk now p) (hm : MiningOk m) (hx : MiningOk x)
    (um : UpToDate now p.cumulative m) (ux : UpToDate now p.cumulative x)
    (h : p.changeDelegate now m none (some x) a = .ok (p', m', none, some x')) :
    p = { p' with totalShare := p'.totalShare + a } ∧ m' = m ∧ x = { x' with stakeFromOthers := x'.stakeFromOthers + a } := by
  obtain ⟨h1, p1, h2, h3⟩ := changeDelegate_ok.mp h
  rw [withDelegate_none] at h3
  obtain ⟨rfl, -⟩ := h3
  rw [withDelegate_some] at h2
  obtain ⟨x1, h2, e2⟩ := h2
  obtain rfl := Option.some.inj e2
  rw [delegateSub_ok] at h2
  obtain ⟨k1, k2, k3, rfl⟩ := h2
  obtain rfl := refresh_settled hp.history hx ux k3
  have e1 : p.totalShare - a + a = p.totalShare := by omega
  have e2 : x.stakeFromOthers - a + a = x.stakeFromOthers := by omega
  exact ⟨by simp only [e1], refresh_settled (n := m.stakeFromOthers) hp.history hm um h1, by simp only [e2]⟩

/-- Every unit of delegated stake earns what the index has grown by. -/
theorem owed_lent {cum : SMap} (hc : History cum) {x : Mining} (hb : Backed x) (a : Nat) :
    owed { x with stakeFromOthers := x.stakeFromOthers + a } cum = owed x cum + a * (lastIndex 0 cum - x.index) := by
  have := pending_sfo_eq hc x a fun e _ => by
    have := dueBy_le_total x.diffs e.1
    unfold Backed at hb
    omega
  unfold owed
  simp only
  omega

/-- Bringing a mining up to date costs it only roundings, also from later distributions. -/
theorem refreshed_owed {cum ext : List (Nat × Nat)} {now : Nat} (hc : History (cum ++ ext)) (hx : ∀ e ∈ ext, midnight now ≤ e.1)
    {m m' : Mining} (hm : MiningOk m) (hb : Backed m) (h : m.refreshRewards now cum = .ok m') :
    owed m' (cum ++ ext) ≤ owed m (cum ++ ext) ∧
      owed m (cum ++ ext) ≤ owed m' (cum ++ ext) + 10 ^ 16 * (expiredCount m (midnight now) + 1) := by
  have hc0 : History cum := ⟨(List.pairwise_append.mp hc.sorted).1, (List.pairwise_append.mp hc.mono).1,
    fun e he => hc.aligned e (by simp [he])⟩
  obtain ⟨-, -, g3, g4, g5, g6⟩ := refresh_owed hc0 hm h
  have hi : m.index ≤ lastIndex 0 cum := Nat.le_trans g4 (indexBefore_le_last hc0 now)
  obtain ⟨c, h0, -⟩ := refresh_ok hc0 hm.sorted h
  have st : Staked now cum m m' fun _ => 0 := by
    refine Or.inr ⟨⟨m', h, rfl, rfl⟩, g5, fun x hxx => ?_⟩
    rw [bod_eq_midnight] at h0
    have h1 := dueBy_after m.diffs (show midnight now ≤ x from hxx)
    have h2 := dueBy_le_total m.diffs (midnight now)
    have h3 := dueBy_le_total m.diffs x
    unfold Backed at hb
    rw [h0]
    simp only [weightOn]
    omega
  obtain ⟨k1, k2⟩ := staked_owed hc hx hm hb hi st
  have : earnedFrom cum ext now (fun _ => 0) = 0 := earned_nothing _ _ _
  omega

/-- Two states that differ by stake delegated to the mining at `D`, which is up to date, as is the mining at `M`; both are then left
alone. -/
theorem lent_or_not (hi : env.PdaInjective) {s0 t1 t2 s1 s2 : Chain} {es0 es es' : List Event} {P M D V : Key} {a : Nat}
    {q p1 p2 : Pool} {m y : Mining} (hg : Genesis env s0) (hro : RunsWith env (Orderly env P V) s0 es0 t1) (hre2 : Reachable env t2)
    (hnow : t1.now = t2.now) (hq1 : PoolAt env t1.world P q)
    (hq2 : PoolAt env t2.world P { q with totalShare := q.totalShare + a })
    (hV : env.findVault P q.rewardMint = some (V, q.bump)) (lam : ∀ k, (t1.world k).lamports = (t2.world k).lamports)
    (hpl : 0 < (t1.world P).lamports) (hml : 0 < (t1.world M).lamports) (hdl : 0 < (t1.world D).lamports) (hMD : M ≠ D)
    (hm1 : Member env t1.world P M m) (hm2 : MiningAt env t2.world M m) (hy1 : Member env t1.world P D y)
    (hy2 : MiningAt env t2.world D { y with stakeFromOthers := y.stakeFromOthers + a })
    (um : m.index = indexBefore q.cumulative t1.now) (uy : y.index = indexBefore q.cumulative t1.now)
    (rest : ∀ k, k ≠ P → k ≠ M → k ≠ D → t1.world k = t2.world k)
    (hr1 : RunsWith env (fun s e => Orderly env P V s e ∧ RoomInPool env P s e ∧ Spares M e ∧ Spares D e) t1 es s1)
    (hr2 : RunsWith env (fun s e => CleanEvent env s e ∧ RoomInPool env P s e ∧ Spares M e ∧ Spares D e) t2 es' s2)
    (hal : Alike env SameEvent t1 t2 es es') (hn : s1.now < 2 ^ 64)
    (hp1' : PoolAt env s1.world P p1) (hp2' : PoolAt env s2.world P p2)
    (hroom1 : p1.cumulative.length < env.caps.index) (hroom2 : p2.cumulative.length < env.caps.index) :
    (MiningAt env s1.world M m ∧ MiningAt env s1.world D y) ∧
      (MiningAt env s2.world M m ∧ MiningAt env s2.world D { y with stakeFromOthers := y.stakeFromOthers + a }) ∧
      owed m p1.cumulative + owed y p1.cumulative ≤
        owed m p2.cumulative + owed { y with stakeFromOthers := y.stakeFromOthers + a } p2.cumulative +
        (totalIn env (takesPart env P m) t2 es' +
          totalIn env (takesPart env P { y with stakeFromOthers := y.stakeFromOthers + a }) t2 es') ∧
      owed y p1.cumulative ≤ owed { y with stakeFromOthers := y.stakeFromOthers + a } p2.cumulative +
        totalIn env (takesPart env P { y with stakeFromOthers := y.stakeFromOthers + a }) t2 es' ∧
      owed m p2.cumulative ≤ owed m p1.cumulative ∧
      ∀ K x, K ≠ M → K ≠ D → Member env t1.world P K x → 0 < (t1.world K).lamports → (∀ e ∈ es, Spares K e) →
        (∀ e ∈ es', Spares K e) →
        MiningAt env s1.world K x ∧ MiningAt env s2.world K x ∧ owed x p2.cumulative ≤ owed x p1.cumulative := by
  have hre1 : Reachable env t1 := ⟨s0, es0, hg, hro.weaken fun _ _ h => h.clean⟩
  have hw := reachable_wf hre1
  have hh := (poolAt_good hw hq1).ok.history
  have hsn : t1.now < 2 ^ 64 := Nat.lt_of_le_of_lt (run_now_le hr1) hn
  have books := (runs_solvent hi (orderly_pool_ne_zero hg hro hq1) hg hro hsn).2.2.2.books q hq1 hV
  have hidx : indexBefore q.cumulative t1.now ≤ q.index :=
    Nat.le_trans (indexBefore_le_last hh _) (lastIndex_le (Nat.zero_le _) (poolAt_good hw hq1).ok.index)
  have hyb := (books.sound D y hy1).backed
  have hye := earning_more hyb a
  have sch : SameSchedule q { q with totalShare := q.totalShare + a } := ⟨rfl, rfl, rfl⟩
  have hap : Apart t1.now (fun _ => a) q { q with totalShare := q.totalShare + a } := by
    intro x _
    simp only [totalOn]
    omega
  have hu' : owed y q.cumulative ≤ owed { y with stakeFromOthers := y.stakeFromOthers + a } q.cumulative :=
    owed_le_now hh uy rfl rfl fun x _ => by rw [hye]; omega
  obtain ⟨g1, g2, g3, g4⟩ := compare_pair hi (a := a) hg hro hre2 hnow hq1 hq2 hV hpl (lam P ▸ hpl) hml (lam M ▸ hml) hdl
    (lam D ▸ hdl) hMD hm1 hm2 hy1 hy2 sch hap hye (um ▸ hidx) (um ▸ hidx) (uy ▸ hidx) (by show y.index ≤ q.index; rw [uy]; exact hidx)
    rfl hu' hr1 hr2 hal hn hp1' hp2' hroom1 hroom2
  have other : ∀ K x, MiningAt env t1.world K x → MiningAt env t2.world K x → 0 < (t1.world K).lamports →
      x.index ≤ indexBefore q.cumulative t1.now →
      RunsWith env (fun s e => CleanEvent env s e ∧ RoomInPool env P s e ∧ Spares K e) t1 es s1 →
      RunsWith env (fun s e => CleanEvent env s e ∧ RoomInPool env P s e ∧ Spares K e) t2 es' s2 →
      MiningAt env s1.world K x ∧ MiningAt env s2.world K x ∧ owed x p2.cumulative ≤ owed x p1.cumulative := by
    intro K x k1 k2 k3 k4 k5 k6
    exact compare_others (c := fun _ => a) hre1 hre2 hnow hq1 hq2 hpl (lam P ▸ hpl) k3 (lam K ▸ k3) k1 k2 sch hap
      (fun _ _ => Int.natCast_nonneg _) (by omega) (by show _ ≤ q.index; omega) (Nat.le_refl _)
      k5 k6 hal hp1' hp2' hroom1 hroom2
  refine ⟨g1, g2, g3, g4, ?_, ?_⟩
  · exact (other M m hm1.1 hm2 hml (Nat.le_of_eq um) (hr1.weaken fun _ _ h => ⟨h.1.clean, h.2.1, h.2.2.1⟩)
      (hr2.weaken fun _ _ h => ⟨h.1, h.2.1, h.2.2.1⟩)).2.2
  · intro K x k1 k2 k3 k4 k5 k6
    have hKP : K ≠ P := by
      rintro rfl
      have e1 := k3.1.2
      have e2 := hq1.2
      rw [e1] at e2
      cases e2
    exact other K x k3.1 ((miningAt_congr (rest K hKP k1 k2)).mp k3.1) k4 (books.sound K x k3).index
      ((runs_also hr1 k5).weaken fun _ _ h => ⟨h.1.1.clean, h.1.2.1, h.2⟩)
      ((runs_also hr2 k6).weaken fun _ _ h => ⟨h.1.1, h.1.2.1, h.2⟩)

end Verif
