import Verif.Lemmas.Disguise
import Verif.Lemmas.DemoExec
/-!
C118: what it takes to pass a pool off as a mining.
-/

namespace Verif

open Spec

section
variable {env : Env}

/-- **C118**, CloseMining: a pool passed as the mining is closed only if the last eight bytes of its mint's address are all zero and
its index is a multiple of 2^64 (which are read as unclaimed rewards and delegated stake); its distribute authority must sign. -/
theorem C118_close (hb : ReadsBytes env) {now : Nat} {w w' : World} {accs : List AccountInfo} {ret : Option Nat}
    (h : exec env now w accs .closeMining = .ok (w', ret)) {M : AccountInfo} (hM : accs[0]? = some M) {p : Pool}
    (hp : PoolAt env w M.key p) (hr : PoolInRange p.header) :
    p.rewardMint < 2 ^ 192 ∧ p.index % 2 ^ 64 = 0 ∧ Signed accs p.distributeAuthority := by
  have hx := (exec_ok.mp h).1
  simp only [process, res_bind_ok, res_pure_ok] at hx
  obtain ⟨w1, hx, -⟩ := hx
  obtain ⟨mi, ow, ta, de, po, rest, q, m, m1, rfl, -, k1, -, -, -, -, -, -, -, -, k2, k3, k4, k5, k6, -⟩ := processCloseMining_ok hx
  cases hM
  obtain rfl := viewMining_pool hp k2
  obtain ⟨g1, g2, -⟩ := refresh_never_less k4
  obtain ⟨-, v2, v3⟩ := hb.view hr
  have e1 : p.rewardMint / 2 ^ 192 = 0 := Nat.eq_zero_of_le_zero (by rw [← v2]; exact k6 ▸ g1)
  have e2 : p.index % 2 ^ 64 = 0 := by rw [← v3, ← g2]; exact k5
  refine ⟨?_, e2, ow, by simp, ?_, k1⟩
  · exact (Nat.div_eq_zero_iff_lt (by decide)).mp e1
  · rw [← k3]; exact (env.poolAsMining_keys p).2.1

/-- **C118**, Claim: a pool passed as the mining pays out only if its deposit authority is the address of the pool that pays, and its
distribute authority signs; the payment is at least the number in the last eight bytes of its mint's address. -/
theorem C118_claim (hb : ReadsBytes env) {now : Nat} {w w' : World} {accs : List AccountInfo} {ret : Option Nat}
    (h : exec env now w accs .claim = .ok (w', ret)) {M : AccountInfo} (hM : accs[3]? = some M) {p : Pool}
    (hp : PoolAt env w M.key p) (hr : PoolInRange p.header) :
    (∃ R, accs[0]? = some R ∧ R.key = p.depositAuthority) ∧ (w p.depositAuthority).owner = env.programId ∧
      Signed accs p.distributeAuthority ∧ ∃ n, ret = some n ∧ p.rewardMint / 2 ^ 192 ≤ n := by
  have hx := (exec_ok.mp h).1
  simp only [process, res_bind_ok, res_pure_ok, Prod.exists, Prod.mk.injEq] at hx
  obtain ⟨w1, n, hx, rfl, rfl⟩ := hx
  obtain ⟨po, mi, va, mn, ow, de, us, to, rest, ut, q, m, m1, rfl, k0, -, -, -, k1, -, -, -, -, -, -, -, -, -, -, k2, k3, k4, -, k5, k6, -⟩ :=
    processClaim_ok hx
  cases hM
  obtain rfl := viewMining_pool hp k2
  obtain ⟨g1, -⟩ := refresh_never_less k5
  obtain ⟨-, v2, -⟩ := hb.view hr
  have e1 := (env.poolAsMining_keys p).1
  have e2 := (env.poolAsMining_keys p).2.1
  refine ⟨⟨po, rfl, by rw [← k4, e1]⟩, by rw [← e1, k4]; exact k0, ⟨ow, by simp, by rw [← k3, e2], k1⟩, n, rfl, by omega⟩

/-- **C118**, ChangeDelegate: a pool passed as the old delegate keeps its three authorities, and the call succeeds only if the amount is
at most the last eight bytes of its index, and the first sixteen bytes of its mint's address, as a number, are at most the index
of the pool of the call. -/
theorem C118_old_delegate (hb : ReadsBytes env) {now : Nat} {w w' : World} {accs : List AccountInfo} {a : Nat} {nd : Key}
    {ret : Option Nat} (hw : Wf env now w) (h : exec env now w accs (.changeDelegate a nd) = .ok (w', ret)) {D R : AccountInfo}
    (hD : accs[4]? = some D) (hR : accs[0]? = some R) {p q : Pool} (hp : PoolAt env w D.key p) (hr : PoolInRange p.header)
    (hq : PoolAt env w R.key q) :
    a ≤ p.index % 2 ^ 64 ∧ p.rewardMint % 2 ^ 128 ≤ q.index ∧
      ∃ p', PoolAt env w' D.key p' ∧ p'.depositAuthority = p.depositAuthority ∧
        p'.distributeAuthority = p.distributeAuthority ∧ p'.fillAuthority = p.fillAuthority := by
  have hx := (exec_ok.mp h).1
  simp only [process, res_bind_ok, res_pure_ok, Prod.mk.injEq] at hx
  obtain ⟨w1, hx, rfl, -⟩ := hx
  obtain ⟨po, mi, de, ow, oldA, newA, rest, q', m, newD, oldD, q1, m1, newD', oldD', rfl, -, -, -, -, -, -, k1, k2, k3, k4, k5, k6, rfl⟩ :=
    processChangeDelegate_ok hx
  cases hD; cases hR
  have hna : ∀ {o b}, env.miningAddr o R.key b ≠ some D.key := fun e =>
    (poolAt_good hw hp).notPda (.inl ⟨_, _, _, e⟩)
  have hne : mi.key ≠ D.key := fun e => hna (by rw [← e]; exact k3.addr)
  obtain ⟨d, rfl, l1, -, l2⟩ : ∃ x, oldD = some x ∧ D.key ≠ R.key ∧ MINING_LEN ≤ (w D.key).len ∧
      viewMining env (w D.key).content = some x := by
    rcases k5 with ⟨e, -⟩ | ⟨-, x⟩
    · exact absurd e hne
    · exact x
  obtain rfl := viewMining_pool hp l2
  obtain rfl : q = q' := by
    have := k3.pview
    rw [hq.2] at this
    exact Option.some.inj this
  unfold Pool.changeDelegate at k6
  simp only [res_bind_ok, res_pure_ok, Prod.exists, Prod.mk.injEq] at k6
  obtain ⟨m2, -, q2, od, k7, q3, ndd, k8, rfl, rfl, rfl, rfl⟩ := k6
  unfold Pool.withDelegate at k7
  simp only [res_bind_ok, res_pure_ok, Prod.exists, Prod.mk.injEq] at k7
  obtain ⟨q4, d', k9, rfl, rfl⟩ := k7
  unfold Pool.delegateSub at k9
  simp only [res_bind_ok, res_pure_ok, Prod.mk.injEq] at k9
  obtain ⟨sfo, s1, tot, -, d2, s2, rfl, rfl⟩ := k9
  obtain ⟨-, -, g3, g4, g5, g6⟩ := refresh_never_less s2
  obtain ⟨v1, -, v3⟩ := hb.view hr
  have hok := (poolAt_good hw hq).ok
  have hidx : (q.cumulative.findMaxLt now).getD 0 ≤ q.index := by
    cases hf : q.cumulative.findMaxLt now with
    | none => exact Nat.zero_le _
    | some v =>
      obtain ⟨k, hk⟩ := findMaxLt_mem hf
      exact hok.index _ hk
  dsimp only at g3 g4 g5 g6
  rw [v1] at g3
  refine ⟨?_, by omega, ?_⟩
  · rw [v3] at s1
    unfold safeSub at s1
    split at s1
    · assumption
    · cases s1
  · have e := env.poolAsMining_keys p
    have hp2 : PoolAt env (putMining env (putPool w R.key q3) mi.key m2) D.key p := by
      unfold PoolAt
      rw [putMining_ne _ _ hne.symm, putPool_ne _ _ l1]
      exact hp
    obtain ⟨p', j1, j2⟩ := storeMining_pool hp2 (by rw [g4, e.1]) (by rw [g5, e.2.1]) (by rw [g6, e.2.2])
    refine ⟨p', ?_, j2⟩
    unfold PoolAt
    rw [putDelegate_ne _ _ (Ne.symm k1)]
    exact j1

/-- **C118**: if all pools are ordinary, no pool is passed as the mining of a Claim or CloseMining that succeeds. -/
theorem C118_ordinary (hb : ReadsBytes env) {now : Nat} {w w' : World} {accs : List AccountInfo} {i : Ix} {ret : Option Nat}
    (ho : OrdinaryPools env w) (h : exec env now w accs i = .ok (w', ret)) (hi : i = .claim ∨ i = .closeMining) :
    NotPoolAsMining env w accs i := by
  rcases hi with rfl | rfl
  · intro a ha q hq
    obtain ⟨o1, o2, o3⟩ := ho _ _ hq
    exact o3 (C118_claim hb h ha hq o1).2.1
  · intro a ha q hq
    obtain ⟨o1, o2, o3⟩ := ho _ _ hq
    exact Nat.not_lt.mpr o2 (C118_close hb h ha hq o1).1

/-- **C118**, histories: as long as all pools are ordinary and no change of delegate names a pool as the old delegate, every history
ends like one in which no pool is passed as a mining at all: leave out the instructions that fail. -/
theorem C118_histories (hb : ReadsBytes env) {s s' : Chain} {es : List Event} (hr : RunsWith env (OrdinaryEvent env) s es s') :
    ∃ es', es'.Sublist es ∧ RunsWith env (CleanEvent env) s es' s' := by
  induction hr with
  | nil s => exact ⟨[], .slnil, .nil s⟩
  | @cons s s' e es hv hc _ ih =>
    obtain ⟨es', h1, h2⟩ := ih
    cases e with
    | ix accs i =>
      cases hx : exec env s.now s.world accs i with
      | error er =>
        refine ⟨es', h1.cons _, ?_⟩
        have : s.apply env (.ix accs i) = s := by simp only [Chain.apply, hx]
        rwa [this] at h2
      | ok r =>
        refine ⟨_, h1.cons_cons _, .cons hv ?_ h2⟩
        show NotPoolAsMining env s.world accs i
        cases i with
        | claim => exact C118_ordinary hb hc.1 hx (.inl rfl)
        | closeMining => exact C118_ordinary hb hc.1 hx (.inr rfl)
        | changeDelegate a d => exact hc.2 a d rfl
        | _ => trivial
    | _ => exact ⟨_, h1.cons_cons _, .cons hv trivial h2⟩

end

section Examples

open Demo

/-- The example environment reads bytes. -/
theorem reads_bytes : ReadsBytes Demo.env := by
  intro a p tables ha hr
  rw [C49_pool_as_mining ha hr]
  rfl

/-- The attacker's pool 200 has been filled and distributed from. -/
def disguised : List Event :=
  [initPool 100, initPoolBy 200 210, initMining 200 121, depositBy 200 210 121 1 .flex 121,
   fill 200 10 (day0 + 10 * DAY), distribute 200, .tick DAY]

/-- The same, and the deposit authority of pool 100 is pool 200, which signed for it. -/
def subordinate : List Event :=
  [.ix [W 100, R 101, W (vaultOf 100 101), SW 102, S 200, R 4, R 2, R 3] (.initializePool 112 120),
   initPoolBy 200 210, initMining 200 121, depositBy 200 210 121 1 .flex 121,
   fill 200 10 (day0 + 10 * DAY), distribute 200, .tick DAY]

def goesOn (s : Chain) (accs : List AccountInfo) (i : Ix) : Bool :=
  match exec Demo.env s.now s.world accs i with
  | .ok _ => true
  | .error _ => false

theorem goesOn_sound {s : Chain} {accs : List AccountInfo} {i : Ix} (h : goesOn s accs i = true) :
    ∃ w' ret, exec Demo.env s.now s.world accs i = .ok (w', ret) := by
  unfold goesOn at h
  split at h
  · rename_i r hr; exact ⟨r.1, r.2, hr⟩
  · cases h

def headerFits (h : PoolHeader) : Bool :=
  decide (h.depositAuthority < 2 ^ 256 ∧ h.distributeAuthority < 2 ^ 256 ∧ h.fillAuthority < 2 ^ 256 ∧ h.rewardMint < 2 ^ 256 ∧
    h.index < 2 ^ 128 ∧ h.totalShare < 2 ^ 64 ∧ h.distributionEndsAt < 2 ^ 64 ∧ h.tokensAvailable < 2 ^ 64 ∧ h.bump < 2 ^ 8 ∧
    h.data < 2 ^ 56)

theorem headerFits_sound {h : PoolHeader} (hb : headerFits h = true) : PoolInRange h := by
  obtain ⟨h1, h2, h3, h4, h5, h6, h7, h8, h9, h10⟩ := of_decide_eq_true hb
  exact ⟨h1, h2, h3, h4, h5, h6, h7, h8, h9, h10⟩

/-- C118, CloseMining: with the mint 101, whose address ends in zero bytes, pool 100 is closed by its distribute authority and the
deposit authority of pool 200. -/
example : ∃ s w' ret p, Reachable Demo.env s ∧
    exec Demo.env s.now s.world [W 100, S 111, W 102, S 210, R 200] .closeMining = .ok (w', ret) ∧
    PoolAt Demo.env s.world 100 p ∧ PoolInRange p.header := by
  have hr := after_reachable (es := disguised) (by decide +kernel)
  obtain ⟨w', ret, h⟩ := goesOn_sound (s := (run s0 disguised).getD s0) (accs := [W 100, S 111, W 102, S 210, R 200])
    (i := .closeMining) (by decide +kernel)
  obtain ⟨p, h1, h2⟩ := hasPool_sound (show hasPool ((run s0 disguised).getD s0).world 100 (fun p => headerFits p.header) = true by
    decide +kernel)
  exact ⟨_, w', ret, p, hr, h, h1, headerFits_sound h2⟩

/-- C118, Claim: pool 100, whose deposit authority is pool 200, passed as a mining. -/
example : ∃ s w' ret p, Reachable Demo.env s ∧
    exec Demo.env s.now s.world [R 200, R 101, W (vaultOf 200 101), W 100, S 120, S 210, W 130, R 2] .claim = .ok (w', ret) ∧
    PoolAt Demo.env s.world 100 p ∧ PoolInRange p.header := by
  have hr := after_reachable (es := subordinate) (by decide +kernel)
  obtain ⟨w', ret, h⟩ := goesOn_sound (s := (run s0 subordinate).getD s0)
    (accs := [R 200, R 101, W (vaultOf 200 101), W 100, S 120, S 210, W 130, R 2]) (i := .claim) (by decide +kernel)
  obtain ⟨p, h1, h2⟩ := hasPool_sound (show hasPool ((run s0 subordinate).getD s0).world 100 (fun p => headerFits p.header) = true by
    decide +kernel)
  exact ⟨_, w', ret, p, hr, h, h1, headerFits_sound h2⟩

/-- C118, ChangeDelegate: pool 100 passed as the old delegate. -/
example : ∃ s w' ret p q, Reachable Demo.env s ∧
    exec Demo.env s.now s.world [W 200, W (mine 121 200), S 210, S 121, W 100, W (mine 121 200)] (.changeDelegate 0 121) =
      .ok (w', ret) ∧ PoolAt Demo.env s.world 100 p ∧ PoolInRange p.header ∧ PoolAt Demo.env s.world 200 q := by
  have hr := after_reachable (es := disguised) (by decide +kernel)
  obtain ⟨w', ret, h⟩ := goesOn_sound (s := (run s0 disguised).getD s0)
    (accs := [W 200, W (mine 121 200), S 210, S 121, W 100, W (mine 121 200)]) (i := .changeDelegate 0 121) (by decide +kernel)
  obtain ⟨p, h1, h2⟩ := hasPool_sound (show hasPool ((run s0 disguised).getD s0).world 100 (fun p => headerFits p.header) = true by
    decide +kernel)
  obtain ⟨q, h3, -⟩ := hasPool_sound (show hasPool ((run s0 disguised).getD s0).world 200 (fun _ => true) = true by decide +kernel)
  exact ⟨_, w', ret, p, q, hr, h, h1, headerFits_sound h2, h3⟩

/-- A pool with the mint 2^192 + 101 and a deposit authority of its own. -/
def ordinaryPool (a : Key) : Pool :=
  { depositAuthority := a, distributeAuthority := 111, fillAuthority := 112, rewardMint := 2 ^ 192 + 101, index := 0,
    totalShare := 1000, distributionEndsAt := day0 + 7 * DAY, tokensAvailable := 70, bump := 255, accountType := 1, diffs := [],
    cumulative := [] }

def ordinaryWorld : World := fun k =>
  if k = 100 then { owner := 1, lamports := 10, len := POOL_LEN, content := .pool (ordinaryPool 110) }
  else if k = 200 then { owner := 1, lamports := 10, len := POOL_LEN, content := .pool (ordinaryPool 210) }
  else { owner := 3, lamports := 0, len := 0, content := .zero }

theorem ordinaryWorld_ordinary : OrdinaryPools Demo.env ordinaryWorld := by
  intro k p hp
  unfold PoolAt ordinaryWorld at hp
  split at hp
  · obtain ⟨-, hp⟩ := hp
    cases hp
    exact ⟨headerFits_sound (by decide +kernel), by decide +kernel, by decide +kernel⟩
  · split at hp
    · obtain ⟨-, hp⟩ := hp
      cases hp
      exact ⟨headerFits_sound (by decide +kernel), by decide +kernel, by decide +kernel⟩
    · cases hp.2

/-- C118, histories: a distribution, which succeeds, and an attempt to close pool 100 as a mining, which fails. -/
example : ∃ s', RunsWith Demo.env (OrdinaryEvent Demo.env) ⟨day0 + 100, ordinaryWorld⟩
      [.ix [W 100, S 111, W 102, S 210, R 200] .closeMining, distribute 200, .tick DAY] s' ∧
    goesOn ⟨day0 + 100, ordinaryWorld⟩ [W 100, S 111, W 102, S 210, R 200] .closeMining = false ∧
    goesOn ⟨day0 + 100, ordinaryWorld⟩ [W 200, S 111] .distributeRewards = true := by
  have hf : goesOn ⟨day0 + 100, ordinaryWorld⟩ [W 100, S 111, W 102, S 210, R 200] .closeMining = false := by decide +kernel
  have he : (⟨day0 + 100, ordinaryWorld⟩ : Chain).apply Demo.env (.ix [W 100, S 111, W 102, S 210, R 200] .closeMining) =
      ⟨day0 + 100, ordinaryWorld⟩ := by
    unfold goesOn at hf
    split at hf
    · cases hf
    · rename_i e hx; simp only [Chain.apply, hx]
  refine ⟨_, .cons ?_ ⟨ordinaryWorld_ordinary, fun _ _ h => by cases h⟩
    (.cons ?_ ⟨by rw [he]; exact ordinaryWorld_ordinary, fun _ _ h => by cases h⟩ (.cons trivial trivial (.nil _))), hf, by decide +kernel⟩
  · show RealSigners [W 100, S 111, W 102, S 210, R 200]
    unfold RealSigners; decide
  · show RealSigners [W 200, S 111]
    unfold RealSigners; decide

end Examples

end Verif
