import Verif.Spec.Disguise
import Verif.Lemmas.Access
import Verif.Props.Layout
/-!
Bringing a mining up to date, whatever its table says.
-/

namespace Verif

open Spec

variable {env : Env}

theorem findMaxLt_mem {l : SMap} {t v : Nat} (h : l.findMaxLt t = some v) : ∃ k, (k, v) ∈ l := by
  induction l generalizing v with
  | nil => cases h
  | cons e l ih =>
    obtain ⟨a, b⟩ := e
    unfold SMap.findMaxLt at h
    split at h
    · split at h
      · rename_i v' hv
        cases h
        obtain ⟨k, hk⟩ := ih hv
        exact ⟨k, List.mem_cons_of_mem _ hk⟩
      · cases h; exact ⟨a, List.mem_cons_self ..⟩
    · cases h

theorem updateIndex_grows {cum : SMap} {date share u i u' i' : Nat}
    (h : Mining.updateIndex cum date share u i = .ok (u', i')) :
    u ≤ u' ∧ i ≤ i' ∧ i' = (cum.findMaxLt date).getD 0 := by
  unfold Mining.updateIndex at h
  simp only [res_bind_ok] at h
  obtain ⟨d, h1, a, -, b, -, r, -, h2⟩ := h
  have h1' : i ≤ (cum.findMaxLt date).getD 0 := by
    unfold safeSub at h1
    split at h1
    · assumption
    · cases h1
  split at h2 <;> simp only [res_bind_ok, res_pure_ok, Prod.mk.injEq] at h2
  · obtain ⟨x, h2, rfl, rfl⟩ := h2
    refine ⟨?_, h1', rfl⟩
    unfold safeAdd64 at h2
    split at h2
    · cases h2; omega
    · cases h2
  · obtain ⟨x, rfl, rfl, rfl⟩ := h2
    exact ⟨Nat.le_refl _, h1', rfl⟩

theorem consumeLoop_grows {cum : SMap} {b : Nat} {l : List (Nat × Nat)} {s s' : Mining.Consume}
    (h : Mining.consumeLoop cum b l s = .ok s') : s.unclaimed ≤ s'.unclaimed ∧ s.index ≤ s'.index := by
  induction l generalizing s with
  | nil => cases h; exact ⟨Nat.le_refl _, Nat.le_refl _⟩
  | cons e l ih =>
    obtain ⟨d, v⟩ := e
    unfold Mining.consumeLoop at h
    split at h
    · cases h; exact ⟨Nat.le_refl _, Nat.le_refl _⟩
    · simp only [res_bind_ok, Prod.exists] at h
      obtain ⟨u, i, h1, t, -, h2⟩ := h
      have h3 := updateIndex_grows h1
      have h4 := ih h2
      dsimp only at h4
      omega

/-- Whatever the table of a mining says, bringing it up to date takes no rewards away, and needs an index not beyond the
history. -/
theorem refresh_never_less {now : Nat} {cum : SMap} {m m' : Mining} (h : m.refreshRewards now cum = .ok m') :
    m.unclaimed ≤ m'.unclaimed ∧ m'.stakeFromOthers = m.stakeFromOthers ∧ m.index ≤ (cum.findMaxLt now).getD 0 ∧
      m'.rewardPool = m.rewardPool ∧ m'.owner = m.owner ∧ m'.rewardMint = m.rewardMint := by
  unfold Mining.refreshRewards Mining.consumeOldModifiers at h
  simp only [res_bind_ok, res_pure_ok, Prod.exists, Prod.mk.injEq] at h
  obtain ⟨sh, -, m1, sh1, ⟨c, h1, rfl, rfl⟩, u, i, h2, sh2, -, rfl⟩ := h
  have h3 := consumeLoop_grows h1
  have h4 := updateIndex_grows h2
  dsimp only at h3 h4 ⊢
  exact ⟨by omega, rfl, by omega, rfl, rfl, rfl⟩

/-- What the program sees of a pool passed as a mining. -/
theorem Spec.ReadsBytes.view (hb : ReadsBytes env) {p : Pool} (hr : PoolInRange p.header) :
    (env.poolAsMining p).index = p.rewardMint % 2 ^ 128 ∧ (env.poolAsMining p).unclaimed = p.rewardMint / 2 ^ 192 ∧
      (env.poolAsMining p).stakeFromOthers = p.index % 2 ^ 64 := by
  have h := hb 8 p [] (.inl rfl) hr
  rw [C49_pool_as_mining (.inl rfl) hr] at h
  have h1 := congrArg MiningHeader.index h
  have h2 := congrArg MiningHeader.unclaimed h
  have h3 := congrArg MiningHeader.stakeFromOthers h
  exact ⟨h1, h2, h3⟩

theorem viewMining_pool {w : World} {k : Key} {p : Pool} {m : Mining} (hp : PoolAt env w k p)
    (h : viewMining env (w k).content = some m) : m = env.poolAsMining p := by
  rw [hp.2] at h
  exact (Option.some.inj h).symm

/-- Writing a mining over a pool that has the same three leading keys leaves a pool with the same authorities. -/
theorem storeMining_pool {w : World} {k : Key} {p : Pool} {m : Mining} (hp : PoolAt env w k p)
    (h1 : m.rewardPool = p.depositAuthority) (h2 : m.owner = p.distributeAuthority) (h3 : m.rewardMint = p.fillAuthority) :
    ∃ p', PoolAt env (putMining env w k m) k p' ∧ p'.depositAuthority = p.depositAuthority ∧
      p'.distributeAuthority = p.distributeAuthority ∧ p'.fillAuthority = p.fillAuthority := by
  unfold putMining World.set PoolAt
  simp only [if_pos]
  unfold storeMining
  split
  · exact ⟨p, hp, rfl, rfl, rfl⟩
  · rw [hp.2]
    obtain ⟨k1, k2, k3⟩ := env.poolSetMining_keys p m
    exact ⟨env.poolSetMining p m, ⟨hp.1, rfl⟩, by rw [k1, h1], by rw [k2, h2], by rw [k3, h3]⟩

end Verif
