import Verif.Spec.Rename
import Verif.Lemmas.Local
/-!
The program commutes with an exchange of all addresses (C90).
-/

namespace Verif

open Spec

variable {env : Env} (r : Renaming)

namespace Spec.Renaming

theorem pool_to (p : Pool) : r.inverse.pool (r.pool p) = p := by
  simp [pool, inverse, r.back_to]

theorem mining_to (m : Mining) : r.inverse.mining (r.mining m) = m := by
  simp [mining, inverse, r.back_to]

theorem mining_eq {m n : Mining} : r.mining m = r.mining n ↔ m = n :=
  ⟨fun h => by rw [← r.mining_to m, h, r.mining_to], fun h => by rw [h]⟩

theorem pool_eq {m n : Pool} : r.pool m = r.pool n ↔ m = n :=
  ⟨fun h => by rw [← r.pool_to m, h, r.pool_to], fun h => by rw [h]⟩

theorem mining_zero : r.mining Mining.zero = Mining.zero := by
  simp [mining, Mining.zero, r.zero]

theorem pool_zero : r.pool Pool.zero = Pool.zero := by
  simp [pool, Pool.zero, r.zero]

theorem token_to (t : TokenAcc) : r.inverse.token (r.token t) = t := by
  have : ∀ o : Option Key, Option.map (r.back ∘ r.to) o = o := fun o => by cases o <;> simp [r.back_to]
  simp [token, inverse, r.back_to, this]

theorem content_to (c : Content) : r.inverse.content (r.content c) = c := by
  cases c <;> simp [content, mining_to, pool_to, token_to]

theorem account_to (a : Account) : r.inverse.account (r.account a) = a := by
  simp only [account, content_to]
  rw [show r.inverse.to (r.to a.owner) = a.owner from r.back_to _]

theorem account_eq {a b : Account} : r.account a = r.account b ↔ a = b :=
  ⟨fun h => by rw [← r.account_to a, h, r.account_to], fun h => by rw [h]⟩

theorem world_at (w : World) (k : Key) : r.world w (r.to k) = r.account (w k) := by
  simp only [world, r.back_to]

theorem world_set (w : World) (k : Key) (a : Account) : (r.world w).set (r.to k) (r.account a) = r.world (w.set k a) := by
  funext j
  unfold World.set world
  by_cases h : j = r.to k
  · subst h; simp [r.back_to]
  · have : r.back j ≠ k := fun e => h (by rw [← e, r.to_back])
    simp [h, this]

theorem view_mining (c : Content) : viewMining (r.env env) (r.content c) = (viewMining env c).map r.mining := by
  cases c <;> simp [viewMining, content, mining_zero, Renaming.env, pool_to]

theorem view_pool (c : Content) : viewPool (r.env env) (r.content c) = (viewPool env c).map r.pool := by
  cases c <;> simp [viewPool, content, pool_zero, Renaming.env, mining_to]

theorem allZero (c : Content) : (r.content c).allZero = c.allZero := by
  cases c with
  | mining m =>
    have : r.mining m = Mining.zero ↔ m = Mining.zero := by conv => lhs; rw [← r.mining_zero, r.mining_eq]
    simp only [Content.allZero, content, this]
  | pool p =>
    have : r.pool p = Pool.zero ↔ p = Pool.zero := by conv => lhs; rw [← r.pool_zero, r.pool_eq]
    simp only [Content.allZero, content, this]
  | _ => rfl

end Spec.Renaming

theorem okOr_map {α β : Type} (o : Option α) (f : α → β) (e : Err) : okOr (o.map f) e = (okOr o e).map f := by
  cases o <;> rfl

theorem loadMining_ren (a : Account) : loadMining (r.env env) (r.account a) = (loadMining env a).map r.mining := by
  unfold loadMining
  refine bind_map fun _ _ => ?_
  rw [Renaming.account]
  simp only [r.view_mining, okOr_map]

theorem loadPool_ren (a : Account) : loadPool (r.env env) (r.account a) = (loadPool env a).map r.pool := by
  unfold loadPool
  refine bind_map fun _ _ => ?_
  rw [Renaming.account]
  simp only [r.view_pool, okOr_map]

theorem storeMining_ren (a : Account) (m : Mining) :
    storeMining (r.env env) (r.account a) (r.mining m) = r.account (storeMining env a m) := by
  have h : viewMining (r.env env) (r.account a).content = some (r.mining m) ↔ viewMining env a.content = some m := by
    rw [Renaming.account]
    simp only [r.view_mining]
    cases viewMining env a.content with
    | none => simp
    | some n => simp [r.mining_eq]
  unfold storeMining
  simp only [h]
  split
  · rfl
  · cases hc : a.content <;>
      simp [Renaming.account, Renaming.content, hc, Renaming.env, r.pool_to, r.mining_to]

theorem storePool_ren (a : Account) (p : Pool) : storePool (r.account a) (r.pool p) = r.account (storePool a p) := rfl

theorem putPool_ren (w : World) (k : Key) (p : Pool) :
    putPool (r.world w) (r.to k) (r.pool p) = r.world (putPool w k p) := by
  unfold putPool
  rw [r.world_at, storePool_ren, r.world_set]

theorem putMining_ren (w : World) (k : Key) (m : Mining) :
    putMining (r.env env) (r.world w) (r.to k) (r.mining m) = r.world (putMining env w k m) := by
  unfold putMining
  rw [r.world_at, storeMining_ren, r.world_set]

theorem putDelegate_ren (w : World) (k : Key) (m : Option Mining) :
    putDelegate (r.env env) (r.world w) (r.to k) (m.map r.mining) = r.world (putDelegate env w k m) := by
  cases m with
  | none => rfl
  | some m => exact putMining_ren r w k m

/-! ### The arithmetic of minings and pools -/

theorem ensure_congr {α β : Type} {c c' : Prop} [Decidable c] [Decidable c'] (h : c' ↔ c) (e : Err) {f : Unit → Res β}
    {g : Unit → Res α} {k : α → β} (H : c → f () = (g ()).map k) : (ensure c' e >>= f) = (ensure c e >>= g).map k := by
  by_cases hc : c
  · have hc' := h.mpr hc
    simp only [ensure, hc, hc', if_true]
    exact H hc
  · have hc' : ¬ c' := fun x => hc (h.mp x)
    simp only [ensure, hc, hc', if_false]
    rfl

theorem refreshRewards_ren (now : Nat) (c : SMap) (m : Mining) :
    (r.mining m).refreshRewards now c = (m.refreshRewards now c).map r.mining := by
  unfold Mining.refreshRewards
  refine bind_map fun s _ => ?_
  refine bind_map2 (k := fun x => (r.mining x.1, x.2)) ?_ fun ⟨m', s'⟩ _ => ?_
  · unfold Mining.consumeOldModifiers
    exact bind_map fun _ _ => rfl
  · dsimp only
    exact bind_map fun _ _ => bind_map fun _ _ => rfl

theorem decreaseRewards_ren (m : Mining) (n : Nat) : (r.mining m).decreaseRewards n = (m.decreaseRewards n).map r.mining := by
  unfold Mining.decreaseRewards
  split
  · rfl
  · exact bind_map fun _ _ => bind_map fun _ _ => rfl

theorem consumeOldModifiers_ren (p : Pool) (d : Nat) :
    (r.pool p).consumeOldModifiers d = (p.consumeOldModifiers d).map r.pool := by
  unfold Pool.consumeOldModifiers
  exact bind_map fun _ _ => rfl

theorem distribute_ren (c : Caps) (now : Nat) (p : Pool) (n : Nat) :
    (r.pool p).distribute c now n = (p.distribute c now n).map r.pool := by
  unfold Pool.distribute
  refine bind_map fun _ _ => bind_map2 (consumeOldModifiers_ren r p _) fun q _ => ?_
  have e : (r.pool q).cumulative = q.cumulative := rfl
  rw [e]
  split
  · rfl
  · refine bind_map2 (k := r.pool) ?_ fun _ _ => bind_map fun _ _ => rfl
    unfold Pool.updateIndex
    exact bind_map fun _ _ => bind_map fun _ _ => bind_map fun _ _ => rfl

theorem delegateSub_ren (now n : Nat) (p : Pool) (m : Mining) :
    Pool.delegateSub now n (r.pool p) (r.mining m) = (Pool.delegateSub now n p m).map fun x => (r.pool x.1, r.mining x.2) := by
  unfold Pool.delegateSub
  exact bind_map fun a _ => bind_map fun _ _ => bind_map2 (refreshRewards_ren r now p.cumulative { m with stakeFromOthers := a })
    fun _ _ => rfl

theorem delegateAdd_ren (now n : Nat) (p : Pool) (m : Mining) :
    Pool.delegateAdd now n (r.pool p) (r.mining m) = (Pool.delegateAdd now n p m).map fun x => (r.pool x.1, r.mining x.2) := by
  unfold Pool.delegateAdd
  exact bind_map fun a _ => bind_map fun _ _ => bind_map2 (refreshRewards_ren r now p.cumulative { m with stakeFromOthers := a })
    fun _ _ => rfl

theorem withDelegate_ren {f : Pool → Mining → Res (Pool × Mining)}
    (hf : ∀ p m, f (r.pool p) (r.mining m) = (f p m).map fun x => (r.pool x.1, r.mining x.2)) (p : Pool) (d : Option Mining) :
    (r.pool p).withDelegate (d.map r.mining) f = (p.withDelegate d f).map fun x => (r.pool x.1, x.2.map r.mining) := by
  cases d with
  | none => rfl
  | some m => exact bind_map2 (hf p m) fun _ _ => rfl

theorem changeDelegate_ren (now : Nat) (p : Pool) (m : Mining) (a b : Option Mining) (n : Nat) :
    (r.pool p).changeDelegate now (r.mining m) (a.map r.mining) (b.map r.mining) n =
      (p.changeDelegate now m a b n).map fun x =>
        (r.pool x.1, r.mining x.2.1, x.2.2.1.map r.mining, x.2.2.2.map r.mining) := by
  unfold Pool.changeDelegate
  exact bind_map2 (refreshRewards_ren r now p.cumulative m) fun _ _ =>
    bind_map2 (withDelegate_ren r (delegateSub_ren r now n) p b) fun x _ =>
    bind_map2 (withDelegate_ren r (delegateAdd_ren r now n) x.1 a) fun _ _ => rfl

theorem deposit_ren (c : Caps) (now : Nat) (p : Pool) (m : Mining) (n : Nat) (l : LockupPeriod) (d : Option Mining) :
    (r.pool p).deposit c now (r.mining m) n l (d.map r.mining) =
      (p.deposit c now m n l d).map fun x => (r.pool x.1, r.mining x.2.1, x.2.2.map r.mining) := by
  unfold Pool.deposit
  have key : ∀ (q : Pool) (x : Mining),
      (do let (q, d) ← (r.pool q).withDelegate (d.map r.mining) (Pool.delegateAdd now n)
          pure (q, r.mining x, d)) =
      (do let (q, d) ← q.withDelegate d (Pool.delegateAdd now n)
          pure (q, x, d) : Res (Pool × Mining × Option Mining)).map fun x => (r.pool x.1, r.mining x.2.1, x.2.2.map r.mining) :=
    fun q x => bind_map2 (withDelegate_ren r (delegateAdd_ren r now n) q d) fun _ _ => rfl
  refine bind_map2 (refreshRewards_ren r now p.cumulative m) fun m' _ => bind_map fun _ _ => bind_map fun _ _ =>
    bind_map fun df _ => bind_map fun tot _ => bind_map fun sh _ => bind_map fun ex _ => bind_map fun md _ => ?_
  dsimp only
  have e : (r.mining m').diffs = m'.diffs := rfl
  rw [e]
  split
  · exact bind_map fun v _ => key { p with totalShare := tot, diffs := p.diffs.insert c.pool ex md }
      { m' with share := sh, diffs := m'.diffs.set ex v }
  · exact key { p with totalShare := tot, diffs := p.diffs.insert c.pool ex md }
      { m' with share := sh, diffs := m'.diffs.insert c.mining ex df }

theorem withdraw_ren (now : Nat) (p : Pool) (m : Mining) (n : Nat) (d : Option Mining) :
    (r.pool p).withdraw now (r.mining m) n (d.map r.mining) =
      (p.withdraw now m n d).map fun x => (r.pool x.1, r.mining x.2.1, x.2.2.map r.mining) := by
  unfold Pool.withdraw
  exact bind_map2 (refreshRewards_ren r now p.cumulative m) fun _ _ => bind_map fun _ _ => bind_map fun _ _ =>
    bind_map2 (consumeOldModifiers_ren r { p with totalShare := _ } _) fun q _ =>
    bind_map2 (withDelegate_ren r (delegateSub_ren r now n) q d) fun _ _ => rfl

theorem slash_ren (now : Nat) (p : Pool) (m : Mining) (a b : Nat) (e : Option Nat) :
    (r.pool p).slash now (r.mining m) a b e = (p.slash now m a b e).map fun x => (r.pool x.1, r.mining x.2) := by
  unfold Pool.slash
  refine bind_map2 (withdraw_ren r now p m b none) fun _ _ => ?_
  cases e with
  | none => rfl
  | some ts => exact bind_map fun _ _ => bind_map fun _ _ => bind_map fun _ _ => rfl

theorem extend_ren (c : Caps) (now : Nat) (p : Pool) (m : Mining) (ol nl : LockupPeriod) (ts b a : Nat) (d : Option Mining) :
    (r.pool p).extend c now (r.mining m) ol nl ts b a (d.map r.mining) =
      (p.extend c now m ol nl ts b a d).map fun x => (r.pool x.1, r.mining x.2.1, x.2.2.map r.mining) := by
  have key : ∀ (q : Pool) (x : Mining),
      (do let amountToRestake ← safeAdd64 b a
          let (q, d) ← (r.pool q).withDelegate (d.map r.mining) (Pool.delegateSub now b)
          q.deposit c now (r.mining x) amountToRestake nl d) =
      (do let amountToRestake ← safeAdd64 b a
          let (q, d) ← q.withDelegate d (Pool.delegateSub now b)
          q.deposit c now x amountToRestake nl d).map fun (x : Pool × Mining × Option Mining) => (r.pool x.1, r.mining x.2.1, x.2.2.map r.mining) := by
    intro q x
    exact bind_map fun _ _ => bind_map2 (withDelegate_ren r (delegateSub_ren r now b) q d) fun y _ =>
      deposit_ren r c now y.1 x _ nl y.2
  unfold Pool.extend
  refine bind_map2 (refreshRewards_ren r now p.cumulative m) fun m' _ => ?_
  dsimp only
  split
  · refine bind_map fun _ _ => bind_map fun _ _ => ?_
    split
    · exact bind_map fun _ _ => bind_map fun _ _ => bind_map fun md _ => bind_map fun sh _ => bind_map fun tot _ =>
        key { p with totalShare := tot } { m' with diffs := md, share := sh }
    · exact bind_map fun sh _ => bind_map fun tot _ => key { p with totalShare := tot } { m' with share := sh }
  · refine bind_map fun _ _ => bind_map fun _ _ => ?_
    split
    · exact bind_map fun _ _ => bind_map fun _ _ => bind_map fun md _ => bind_map fun sh _ => bind_map fun tot _ =>
        key { p with totalShare := tot } { m' with diffs := md, share := sh }
    · exact bind_map fun sh _ => bind_map fun tot _ => key { p with totalShare := tot } { m' with share := sh }

end Verif
