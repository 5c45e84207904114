import Verif.Lemmas.Trade
/-!
Histories in which stake is delegated instead of being deposited by the delegate.
-/

namespace Verif

open Spec

variable {env : Env}

/-- The second case of `DelegatedInstead`. -/
structure Differs (env : Env) (x : Nat) (k : Key) (v w : World) : Prop where
  others : ∀ j, j ≠ k → v j = w j
  mining : ∃ m n, MiningAt env v k m ∧ w k = { v k with content := .mining n } ∧ Instead x m n

theorem Differs.instead {x : Nat} {k : Key} {v w : World} (h : Differs env x k v w) : DelegatedInstead env x k v w :=
  Or.inr ⟨h.others, h.mining⟩

namespace Differs

variable {x : Nat} {k : Key} {v w : World}

theorem lamports (h : Differs env x k v w) (j : Key) : (v j).lamports = (w j).lamports := by
  by_cases hj : j = k
  · subst hj
    obtain ⟨m, n, -, h2, -⟩ := h.mining
    rw [h2]
  · rw [h.others j hj]

theorem owner (h : Differs env x k v w) (j : Key) : (v j).owner = (w j).owner := by
  by_cases hj : j = k
  · subst hj
    obtain ⟨m, n, -, h2, -⟩ := h.mining
    rw [h2]
  · rw [h.others j hj]

theorem ne_pool (h : Differs env x k v w) {j : Key} {p : Pool} (hp : (v j).content = .pool p) : j ≠ k := by
  obtain ⟨m, n, h1, -⟩ := h.mining
  rintro rfl
  rw [h1.2] at hp; cases hp

theorem ne_system (h : Differs env x k v w) {j : Key} (ho : (v j).owner = env.systemProgram) : j ≠ k := by
  obtain ⟨m, n, h1, -⟩ := h.mining
  rintro rfl
  exact env.program_ne_system (h1.1.symm.trans ho)

theorem ne_token (h : Differs env x k v w) {j : Key} (ho : (v j).owner = env.tokenProgram) : j ≠ k := by
  obtain ⟨m, n, h1, -⟩ := h.mining
  rintro rfl
  exact env.program_ne_token (h1.1.symm.trans ho)

/-- The same change to both. -/
theorem set (h : Differs env x k v w) {j : Key} (hj : j ≠ k) (a : Account) : Differs env x k (v.set j a) (w.set j a) := by
  have hk : k ≠ j := Ne.symm hj
  obtain ⟨m, n, h1, h2, h3⟩ := h.mining
  refine ⟨fun i hi => ?_, m, n, (miningAt_congr (world_set_ne _ _ hk)).mpr h1, ?_, h3⟩
  · by_cases e : i = j
    · subst e; rw [world_set_same, world_set_same]
    · rw [world_set_ne _ _ e, world_set_ne _ _ e]; exact h.others i hi
  · rw [world_set_ne _ _ hk, world_set_ne _ _ hk]; exact h2

theorem putPool (h : Differs env x k v w) {j : Key} (hj : j ≠ k) (p : Pool) :
    Differs env x k (putPool v j p) (putPool w j p) := by
  unfold Verif.putPool
  rw [h.others j hj]
  exact h.set hj _

theorem putMining (h : Differs env x k v w) {j : Key} {m' n' : Mining}
    (h1 : j ≠ k → m' = n') (h2 : j = k → Instead x m' n') :
    Differs env x k (putMining env v j m') (putMining env w j n') := by
  by_cases hj : j = k
  · subst hj
    obtain ⟨m, n, g1, g2, -⟩ := h.mining
    have g3 : (w j).content = .mining n := by rw [g2]
    unfold Verif.putMining
    rw [Near.storeMining_eq g1.2, Near.storeMining_eq g3]
    refine ⟨fun i hi => ?_, m', n', ⟨?_, ?_⟩, ?_, h2 rfl⟩
    · rw [world_set_ne _ _ hi, world_set_ne _ _ hi]; exact h.others i hi
    · rw [world_set_same]; exact g1.1
    · rw [world_set_same]
    · rw [world_set_same, world_set_same, g2]
  · obtain rfl := h1 hj
    unfold Verif.putMining
    rw [h.others j hj]
    exact h.set hj _

theorem putDelegate (h : Differs env x k v w) {j : Key} {d e : Option Mining}
    (h1 : j ≠ k → d = e) (h2 : j = k → (d = none ∧ e = none) ∨ OptInstead x d e) :
    Differs env x k (putDelegate env v j d) (putDelegate env w j e) := by
  by_cases hj : j = k
  · rcases h2 hj with ⟨rfl, rfl⟩ | h2
    · exact h
    · cases d with
      | none => exact h2.elim
      | some m =>
        cases e with
        | none => exact h2.elim
        | some n => exact h.putMining (fun hh => absurd hj hh) fun _ => h2
  · obtain rfl := h1 hj
    cases d with
    | none => exact h
    | some m => exact h.putMining (fun _ => rfl) fun hh => absurd hh hj

/-- What is read of a mining in the two worlds. -/
theorem read (h : Differs env x k v w) {j : Key} {m n : Mining}
    (h1 : viewMining env (v j).content = some m) (h2 : viewMining env (w j).content = some n) :
    (j ≠ k → m = n) ∧ (j = k → Instead x m n) := by
  by_cases hj : j = k
  · subst hj
    obtain ⟨a, b, g1, g2, g3⟩ := h.mining
    rw [g1.2] at h1; rw [g2] at h2
    cases h1; cases h2
    exact ⟨fun hh => absurd rfl hh, fun _ => g3⟩
  · rw [← h.others j hj, h1] at h2
    cases h2
    exact ⟨fun _ => rfl, fun hh => absurd hh hj⟩

theorem readPool (h : Differs env x k v w) {j : Key} (hj : j ≠ k) {p q : Pool}
    (h1 : viewPool env (v j).content = some p) (h2 : viewPool env (w j).content = some q) : p = q := by
  rw [← h.others j hj, h1] at h2
  exact Option.some.inj h2

end Differs

section
variable {x now : Nat} {k : Key} {v w : World}

theorem differs_stake (h : Differs env x k v w) (hv : Wf env now v) (hw : Wf env now w) {P M D A : AccountInfo} {o : Key}
    {p q p1 q1 : Pool} {m n m' n' : Mining} {d e d' e' : Option Mining} {i : Ix} (hA : A.key ≠ 0)
    (vP : (v P.key).owner = env.programId) (wP : (w P.key).owner = env.programId)
    (vM : (v M.key).owner = env.programId) (wM : (w M.key).owner = env.programId)
    (l1 : PoolAndMining env v o M.key P.key A.key p m) (l2 : PoolAndMining env w o M.key P.key A.key q n)
    (hdo : ∀ x, d = some x → MiningOk x) (hsame : D.key ≠ k → d = e)
    (hdiff : D.key = k → (d = none ∧ e = none) ∨ OptInstead x d e)
    (o1 : StakeOp env.caps now p m d p1 m' d' i) (o2 : StakeOp env.caps now q n e q1 n' e' i) :
    Differs env x k (putDelegate env (putMining env (putPool v P.key p1) M.key m') D.key d')
      (putDelegate env (putMining env (putPool w P.key q1) M.key n') D.key e') := by
  obtain ⟨a1, a2⟩ := pool_slot (hv P.key) vP l1.plen l1.pview hA (Or.inl l1.auth)
  have hPk : P.key ≠ k := h.ne_pool a1
  obtain rfl := h.readPool hPk l1.pview l2.pview
  obtain ⟨b1, b2⟩ := h.read l1.mview l2.mview
  obtain ⟨c1, -⟩ := mining_slot hv vM vP l1
  obtain ⟨c2, -⟩ := mining_slot hw wM wP l2
  have hmn : m = n ∨ Instead x m n := by
    by_cases hh : M.key = k
    · exact Or.inr (b2 hh)
    · exact Or.inl (b1 hh)
  have hde : d = e ∨ OptInstead x d e := by
    by_cases hh : D.key = k
    · rcases hdiff hh with ⟨rfl, rfl⟩ | hh
      · exact Or.inl rfl
      · exact Or.inr hh
    · exact Or.inl (hsame hh)
  have hnone : d = none → d' = none := by
    rintro rfl
    cases i <;> first | exact o1.elim | exact o1.2.2 | skip
    · obtain ⟨_, _, _, _, _, _, _, _, _, _, _, g⟩ := deposit_ok (refresh_sorted a2.ok c1) o1
      rw [withDelegate_none] at g; exact g.2
    · obtain ⟨_, _, _, _, _, g⟩ := withdraw_ok a2.ok.sorted o1
      rw [withDelegate_none] at g; exact g.2
    · obtain ⟨-, -, -, -, g⟩ := extend_same a2.ok c1 hdo o1
      cases d' with
      | none => rfl
      | some _ => exact g.elim
  obtain ⟨rfl, r2, r3, r4, r5⟩ := o1.instead a2.ok c1 c2 hdo hmn hde o2
  refine ((h.putPool hPk p1).putMining (fun hh => r2 (b1 hh)) fun hh => r3 (b2 hh)).putDelegate
    (fun hh => r4 (hsame hh)) fun hh => ?_
  rcases hdiff hh with ⟨g1, g2⟩ | g
  · refine Or.inl ⟨hnone g1, ?_⟩
    rw [← r4 (by rw [g1, g2])]
    exact hnone g1
  · exact Or.inr (r5 g)

theorem differs_delegate (h : Differs env x k v w) (hv : Wf env now v) {M D : AccountInfo} {dl P : Key}
    {d e : Option Mining} (vD : (v D.key).owner = env.programId)
    (h1 : (M.key = D.key ∧ d = none) ∨ (M.key ≠ D.key ∧ ∃ x, d = some x ∧ DelegateOk env v D.key dl P x))
    (h2 : (M.key = D.key ∧ e = none) ∨ (M.key ≠ D.key ∧ ∃ x, e = some x ∧ DelegateOk env w D.key dl P x)) :
    (∀ x, d = some x → MiningOk x) ∧ (D.key ≠ k → d = e) ∧ (D.key = k → (d = none ∧ e = none) ∨ OptInstead x d e) := by
  rcases h1 with ⟨a, rfl⟩ | ⟨a, y, rfl, hy⟩
  · rcases h2 with ⟨-, rfl⟩ | ⟨b, -⟩
    · exact ⟨by simp, fun _ => rfl, fun _ => Or.inl ⟨rfl, rfl⟩⟩
    · exact absurd a b
  · rcases h2 with ⟨b, -⟩ | ⟨-, z, rfl, hz⟩
    · exact absurd b a
    · obtain ⟨r1, r2⟩ := h.read hy.view hz.view
      refine ⟨?_, fun hh => by rw [r1 hh], fun hh => Or.inr (r2 hh)⟩
      rintro _ ⟨⟩; exact (delegate_slot hv vD hy).1

theorem differs_call (h : Differs env x k v w) (hv : Wf env now v) (hw : Wf env now w) {accs : List AccountInfo}
    (hs : RealSigners accs) {o dl : Key} {P M A D P' M' A' D' : AccountInfo} {p q p1 q1 : Pool} {m n m' n' : Mining}
    {d e d' e' : Option Mining} {i : Ix} (c1 : StakeCall env v accs o dl P M A D p m d)
    (c2 : StakeCall env w accs o dl P' M' A' D' q n e)
    (o1 : StakeOp env.caps now p m d p1 m' d' i) (o2 : StakeOp env.caps now q n e q1 n' e' i) :
    Differs env x k (putDelegate env (putMining env (putPool v P.key p1) M.key m') D.key d')
      (putDelegate env (putMining env (putPool w P'.key q1) M'.key n') D'.key e') := by
  obtain ⟨rest, e1⟩ := c1.accs_eq
  obtain ⟨rest', e2⟩ := c2.accs_eq
  rw [e1] at e2
  simp only [List.cons.injEq] at e2
  obtain ⟨rfl, rfl, rfl, rfl, -⟩ := e2
  obtain ⟨d1, d2, d3⟩ := differs_delegate h hv c1.del_owned c1.delegate c2.delegate
  exact differs_stake h hv hw (hs A (by rw [e1]; simp) c1.signed) c1.pool_owned c2.pool_owned c1.mining_owned c2.mining_owned
    c1.loaded c2.loaded d1 d2 d3 o1 o2

theorem differs_redelegate (h : Differs env x k v w) (hv : Wf env now v) {accs : List AccountInfo}
    (hs : RealSigners accs) {a : Nat} {nd : Key} (cv : NotPoolAsMining env v accs (.changeDelegate a nd)) {v' w' : World}
    (h1 : processChangeDelegate env now v accs a nd = .ok v') (h2 : processChangeDelegate env now w accs a nd = .ok w') :
    Differs env x k v' w' := by
  obtain ⟨P, M, A, O, Old, New, rest, p, m, nD, oD, p', m', nD', oD', rfl, vP, vM, hA, hO, vO, vN, hne, hmp, l1,
      hn, ho, hd, rfl⟩ := processChangeDelegate_ok h1
  obtain ⟨P', M', A', O', Old', New', rest', q, n, nE, oE, q', n', nE', oE', e2, wP, wM, -, -, wO, wN, -, -, l2,
      hn2, ho2, hd2, rfl⟩ := processChangeDelegate_ok h2
  simp only [List.cons.injEq] at e2
  obtain ⟨rfl, rfl, rfl, rfl, rfl, rfl, rfl⟩ := e2
  have hA0 := hs A (by simp) hA
  obtain ⟨a1, a2⟩ := pool_slot (hv P.key) vP l1.plen l1.pview hA0 (Or.inl l1.auth)
  have hPk : P.key ≠ k := h.ne_pool a1
  obtain rfl := h.readPool hPk l1.pview l2.pview
  obtain ⟨b1, b2⟩ := h.read l1.mview l2.mview
  obtain ⟨n1, n2, n3⟩ := differs_delegate h hv vN hn hn2
  have old : (∀ x, oD = some x → MiningOk x) ∧ (Old.key ≠ k → oD = oE) ∧
      (Old.key = k → (oD = none ∧ oE = none) ∨ OptInstead x oD oE) := by
    rcases ho with ⟨a, rfl⟩ | ⟨a, y, rfl, -, -, hy⟩
    · rcases ho2 with ⟨-, rfl⟩ | ⟨b, -⟩
      · exact ⟨by simp, fun _ => rfl, fun _ => Or.inl ⟨rfl, rfl⟩⟩
      · exact absurd a b
    · rcases ho2 with ⟨b, -⟩ | ⟨-, z, rfl, -, -, hz⟩
      · exact absurd b a
      · obtain ⟨r1, r2⟩ := h.read hy hz
        refine ⟨?_, fun hh => by rw [r1 hh], fun hh => Or.inr (r2 hh)⟩
        rintro _ ⟨⟩
        exact (mining_view (hv Old.key) vO hy fun q hq => cv Old (by simp) q ⟨vO, hq⟩).1
  obtain ⟨o1, o2, o3⟩ := old
  have either : ∀ {j : Key} {d e : Option Mining}, (j ≠ k → d = e) → (j = k → (d = none ∧ e = none) ∨ OptInstead x d e) →
      d = e ∨ OptInstead x d e := by
    intro j d e g1 g2
    by_cases hh : j = k
    · rcases g2 hh with ⟨rfl, rfl⟩ | hh
      · exact Or.inl rfl
      · exact Or.inr hh
    · exact Or.inl (g1 hh)
  have none : ∀ {d d' : Option Mining}, SameDelegate d d' → d = none → d' = none := by
    rintro d d' g rfl
    cases d' with
    | none => rfl
    | some _ => exact g.elim
  rw [changeDelegate_ok] at hd hd2
  obtain ⟨r1, p1, x1, y1⟩ := hd
  obtain ⟨r2, q1, x2, y2⟩ := hd2
  have hr' : m = n → m' = n' := by rintro rfl; rw [r1] at r2; cases r2; rfl
  obtain ⟨rfl, s2, s3⟩ := sub_instead (either o2 o3) x1 x2
  obtain ⟨t1, t2⟩ := withSub_same a2.ok o1 x1
  obtain ⟨rfl, s5, s6⟩ := add_instead (either n2 n3) y1 y2
  obtain ⟨-, t3⟩ := withAdd_same t1.ok n1 y1
  refine (((h.putPool hPk p').putMining (fun hh => hr' (b1 hh)) fun hh => refresh_instead (b2 hh) r1 r2).putDelegate
    (fun hh => s2 (o2 hh)) fun hh => ?_).putDelegate (fun hh => s5 (n2 hh)) fun hh => ?_
  · rcases o3 hh with ⟨g1, g2⟩ | g
    · exact Or.inl ⟨none t2 g1, by rw [← s2 (by rw [g1, g2])]; exact none t2 g1⟩
    · exact Or.inr (s3 g)
  · rcases n3 hh with ⟨g1, g2⟩ | g
    · exact Or.inl ⟨none t3 g1, by rw [← s5 (by rw [g1, g2])]; exact none t3 g1⟩
    · exact Or.inr (s6 g)

theorem differs_slash (h : Differs env x k v w) (hv : Wf env now v) (hw : Wf env now w) {accs : List AccountInfo}
    (hs : RealSigners accs) {o : Key} {n mu : Nat} {ex : Option Nat} {v' w' : World}
    (h1 : processSlash env now v accs o n mu ex = .ok v') (h2 : processSlash env now w accs o n mu ex = .ok w') :
    Differs env x k v' w' := by
  obtain ⟨A, P, M, rest, p, m, p', m', rfl, hsig, vP, vM, hne, l1, o1, rfl⟩ := processSlash_ok h1
  obtain ⟨A', P', M', rest', q, n1, q', n', e2, -, wP, wM, -, l2, o2, rfl⟩ := processSlash_ok h2
  simp only [List.cons.injEq] at e2
  obtain ⟨rfl, rfl, rfl, rfl⟩ := e2
  exact differs_stake (D := M) (d := none) (e := none) (d' := none) (e' := none) (i := .slash o n mu ex) h hv hw
    (hs A (by simp) hsig) vP wP vM wM l1 l2 (by simp) (fun _ => rfl) (fun _ => Or.inl ⟨rfl, rfl⟩) ⟨o1, rfl, rfl⟩ ⟨o2, rfl, rfl⟩

theorem differs_decrease (h : Differs env x k v w) {accs : List AccountInfo} {o : Key} {n : Nat} {v' w' : World}
    (h1 : processDecreaseRewards env v accs o n = .ok v') (h2 : processDecreaseRewards env w accs o n = .ok w') :
    Differs env x k v' w' := by
  obtain ⟨A, P, M, rest, p, m, m', rfl, hsig, vP, vM, hne, l1, o1, rfl⟩ := processDecreaseRewards_ok h1
  obtain ⟨A', P', M', rest', q, n1, n', e2, -, wP, wM, -, l2, o2, rfl⟩ := processDecreaseRewards_ok h2
  simp only [List.cons.injEq] at e2
  obtain ⟨rfl, rfl, rfl, rfl⟩ := e2
  obtain ⟨b1, b2⟩ := h.read l1.mview l2.mview
  refine h.putMining (fun hh => ?_) fun hh => ?_
  · obtain rfl := b1 hh
    rw [o1] at o2
    exact Except.ok.inj o2
  · have hi := b2 hh
    unfold Mining.decreaseRewards at o1 o2
    split at o1
    · rename_i h0
      rw [if_pos h0] at o2
      cases o1; cases o2
      exact hi
    · rename_i h0
      rw [if_neg h0] at o2
      simp only [res_bind_ok, ensure_ok, safeSub_ok, res_pure_ok] at o1 o2
      obtain ⟨-, -, _, ⟨l, rfl⟩, rfl⟩ := o1
      obtain ⟨-, -, _, ⟨-, rfl⟩, rfl⟩ := o2
      rw [hi.diffs]
      exact hi.take l _

theorem differs_spl (h : Differs env x k v w) {src dst auth : AccountInfo} {n : Nat} {v' w' : World}
    (h1 : splTransfer env v src dst auth n = .ok v') (h2 : splTransfer env w src dst auth n = .ok w') :
    Differs env x k v' w' := by
  obtain ⟨_, _, _, -, -, -, o1, -, o2, -⟩ := splTransfer_ok h1
  have k1 := h.ne_token o1
  have k2 := h.ne_token o2
  unfold splTransfer at h1 h2
  rw [← h.others _ k1, ← h.others _ k2] at h2
  simp only [res_bind_ok, ensure_ok, tokenOf_ok] at h1 h2
  obtain ⟨_, -, s, ⟨-, a1⟩, d, ⟨-, a2⟩, _, -, _, -, _, -, _, -, s', a3, h1⟩ := h1
  obtain ⟨_, -, t, ⟨-, b1⟩, e, ⟨-, b2⟩, _, -, _, -, _, -, _, -, t', b3, h2⟩ := h2
  rw [a1] at b1; cases b1
  rw [a2] at b2; cases b2
  rw [a3] at b3; cases b3
  split at h1
  · rename_i he
    rw [if_pos he] at h2
    cases h1; cases h2
    exact h
  · rename_i he
    rw [if_neg he] at h2
    simp only [res_bind_ok, ensure_ok, res_pure_ok] at h1 h2
    obtain ⟨_, -, _, -, rfl⟩ := h1
    obtain ⟨_, -, _, -, rfl⟩ := h2
    exact (h.set k1 _).set k2 _

theorem differs_claim (h : Differs env x k v w) (hv : Wf env now v) {accs : List AccountInfo} (hs : RealSigners accs)
    {v' w' : World} {n n' : Nat}
    (h1 : processClaim env now v accs = .ok (v', n)) (h2 : processClaim env now w accs = .ok (w', n')) :
    Differs env x k v' w' ∧ n = n' := by
  obtain ⟨P, T, V, M, O, A, U, K, rest, ut, p, m, m1, rfl, vP, -, -, vM, hO, hA, -, -, -, -, g1, g2, g3, hne, g4, g5, g6, g7, -,
    r1, rfl, hv'⟩ := processClaim_ok h1
  obtain ⟨P', T', V', M', O', A', U', K', rest', ut', q, y, y1, e2, wP, -, -, wM, -, -, -, -, -, -, -, k2, -, -, -, k5, -, -, -,
    r2, rfl, hw'⟩ := processClaim_ok h2
  simp only [List.cons.injEq] at e2
  obtain ⟨rfl, rfl, rfl, rfl, rfl, rfl, rfl, rfl, rfl⟩ := e2
  obtain ⟨a1, a2⟩ := pool_slot (hv P.key) vP g1 g2 (hs A (by simp) hA) (Or.inl g3)
  obtain rfl := h.readPool (h.ne_pool a1) g2 k2
  obtain ⟨b1, b2⟩ := h.read g5 k5
  have hs1 : M.key ≠ k → m1 = y1 := fun hh => by
    obtain rfl := b1 hh
    rw [r1] at r2
    exact Except.ok.inj r2
  have hs2 : M.key = k → Instead x m1 y1 := fun hh => refresh_instead (b2 hh) r1 r2
  have hu : m1.unclaimed = y1.unclaimed := by
    by_cases hh : M.key = k
    · obtain ⟨c, s, o, e1, e2⟩ := (hs2 hh).elim
      rw [e1, e2]
    · rw [hs1 hh]
  have hn : Differs env x k (putMining env v M.key m1.claim) (putMining env w M.key y1.claim) := by
    refine h.putMining (fun hh => by rw [hs1 hh]) fun hh => ?_
    obtain ⟨c, s, o, e1, e2⟩ := (hs2 hh).elim
    rw [e1, e2]
    exact Instead.mk' { c with unclaimed := 0 }
  refine ⟨?_, hu⟩
  rcases hv' with ⟨p1, ht⟩ | ⟨p1, rfl⟩
  · rcases hw' with ⟨p2, ht'⟩ | ⟨p2, -⟩
    · rw [← hu] at ht'
      exact differs_spl hn ht ht'
    · omega
  · rcases hw' with ⟨p2, -⟩ | ⟨-, rfl⟩
    · omega
    · exact hn

theorem differs_fill (h : Differs env x k v w) (hv : Wf env now v) {accs : List AccountInfo} (hs : RealSigners accs) {r e : Nat}
    {v' w' : World} (h1 : processFillVault env now v accs r e = .ok v') (h2 : processFillVault env now w accs r e = .ok w') :
    Differs env x k v' w' := by
  obtain ⟨P, T, V, F, S, K, rest, p, rfl, vP, -, -, hF, -, -, -, g1, g2, g3, -, -, -, -, -, -, t1⟩ := processFillVault_ok h1
  obtain ⟨P', T', V', F', S', K', rest', q, e2, wP, -, -, -, -, -, -, -, k2, -, -, -, -, -, -, -, t2⟩ := processFillVault_ok h2
  simp only [List.cons.injEq] at e2
  obtain ⟨rfl, rfl, rfl, rfl, rfl, rfl, rfl⟩ := e2
  obtain ⟨a1, a2⟩ := pool_slot (hv P.key) vP g1 g2 (hs F (by simp) hF) (Or.inr (Or.inr g3))
  obtain rfl := h.readPool (h.ne_pool a1) g2 k2
  exact differs_spl (h.putPool (h.ne_pool a1) _) t1 t2

theorem differs_distribute (h : Differs env x k v w) (hv : Wf env now v) {accs : List AccountInfo} (hs : RealSigners accs)
    {v' w' : World} (h1 : processDistributeRewards env now v accs = .ok v')
    (h2 : processDistributeRewards env now w accs = .ok w') : Differs env x k v' w' := by
  obtain ⟨P, B, rest, p, p', r, rfl, vP, hB, g1, g2, g3, g4, g5, rfl⟩ := processDistributeRewards_ok h1
  obtain ⟨P', B', rest', q, q', r', e2, wP, -, -, k2, k3, -, k5, rfl⟩ := processDistributeRewards_ok h2
  simp only [List.cons.injEq] at e2
  obtain ⟨rfl, rfl, rfl⟩ := e2
  obtain ⟨a1, a2⟩ := pool_slot (hv P.key) vP g1 g2 (hs B (by simp) hB) (Or.inr (Or.inl g4))
  obtain rfl := h.readPool (h.ne_pool a1) g2 k2
  rw [g3] at k3
  obtain rfl := Except.ok.inj k3
  rw [g5] at k5
  obtain rfl := Except.ok.inj k5
  exact h.putPool (h.ne_pool a1) _

theorem differs_close (h : Differs env x k v w) {accs : List AccountInfo}
    {v' w' : World} (h1 : processCloseMining env now v accs = .ok v') (h2 : processCloseMining env now w accs = .ok w') :
    DelegatedInstead env x k v' w' := by
  obtain ⟨M, O, G, A, P, rest, p, m, m1, rfl, vM, -, vG, -, -, -, -, -, -, -, -, -, -, -, -, -, rfl⟩ := processCloseMining_ok h1
  obtain ⟨M', O', G', A', P', rest', q, n, n1, e2, wM, -, wG, -, -, -, -, -, -, -, -, -, -, -, -, -, rfl⟩ := processCloseMining_ok h2
  simp only [List.cons.injEq] at e2
  obtain ⟨rfl, rfl, rfl, rfl, rfl, rfl⟩ := e2
  have hG := h.ne_system vG
  rw [h.others _ hG, h.lamports M.key]
  by_cases hM : M.key = k
  · refine Or.inl (funext fun j => ?_)
    obtain ⟨a, b, c1, c2, -⟩ := h.mining
    by_cases hj : j = M.key
    · subst hj
      rw [world_set_same, world_set_same, hM, c2]
    · rw [world_set_ne _ _ hj, world_set_ne _ _ hj]
      by_cases hj' : j = G.key
      · subst hj'; rw [world_set_same, world_set_same]
      · rw [world_set_ne _ _ hj', world_set_ne _ _ hj', h.others j (by rw [← hM]; exact hj)]
  · rw [h.others _ hM]
    exact ((h.set hG _).set hM _).instead

theorem differs_create (h : Differs env x k v w) {Y V : AccountInfo} {len : Nat} {own : Key} {v' w' : World}
    (h1 : createAccount env v Y V len own = .ok v') (h2 : createAccount env w Y V len own = .ok w') :
    Differs env x k v' w' ∧ V.key ≠ k := by
  rw [createAccount_ok] at h1 h2
  obtain ⟨-, -, c1, c2, -, rfl⟩ := h1
  obtain ⟨-, -, -, -, -, rfl⟩ := h2
  have hY := h.ne_system c2.2
  have hV := h.ne_system c1.2.2
  rw [h.others _ hY]
  exact ⟨(h.set hY _).set hV _, hV⟩

theorem differs_initPool (h : Differs env x k v w) (hv : Wf env now v) (hpda : env.IsPda k) {accs : List AccountInfo} {f d : Key}
    {v' w' : World} (h1 : processInitializePool env v accs f d = .ok v')
    (h2 : processInitializePool env w accs f d = .ok w') : Differs env x k v' w' := by
  obtain ⟨P, T, V, Y, A, R, K, S, rest, p, bump, va, vb, rfl, vP, -, -, -, -, -, -, -, g9, -, -, g12, g13, c1, -, i1, rfl⟩ :=
    processInitializePool_ok h1
  obtain ⟨P', T', V', Y', A', R', K', S', rest', q, bump', wa, wb, e2, wP, -, -, -, -, -, -, -, -, -, -, k12, -, c2, -, i2, rfl⟩ :=
    processInitializePool_ok h2
  simp only [List.cons.injEq] at e2
  obtain ⟨rfl, rfl, rfl, rfl, rfl, rfl, rfl, rfl, rfl⟩ := e2
  rw [g12] at k12
  obtain ⟨-, rfl⟩ := Prod.mk.inj (Option.some.inj k12)
  have hPk : P.key ≠ k := by
    rintro rfl
    rcases (hv P.key).pda hpda with ⟨_, e⟩ | e | e
    · have := poolLen_gt; omega
    · exact env.program_ne_token (vP.symm.trans e)
    · exact env.program_ne_system (vP.symm.trans e)
  obtain ⟨n1, hV⟩ := differs_create h c1 c2
  rw [initializeTokenAccount_ok] at i1 i2
  obtain ⟨-, -, rfl⟩ := i1
  obtain ⟨-, -, rfl⟩ := i2
  rw [n1.others _ hV]
  exact (n1.set hV _).putPool hPk _

theorem differs_initMining (h : Differs env x k v w) {accs : List AccountInfo} {o : Key}
    {v' w' : World} (h1 : processInitializeMining env v accs o = .ok v')
    (h2 : processInitializeMining env w accs o = .ok w') : Differs env x k v' w' := by
  obtain ⟨P, M, Y, S, rest, bump, va, rfl, vP, -, -, -, g1, c1, rfl⟩ := processInitializeMining_ok h1
  obtain ⟨P', M', Y', S', rest', bump', wa, e2, wP, -, -, -, g2, c2, rfl⟩ := processInitializeMining_ok h2
  simp only [List.cons.injEq] at e2
  obtain ⟨rfl, rfl, rfl, rfl, rfl⟩ := e2
  rw [g1] at g2
  obtain ⟨-, rfl⟩ := Prod.mk.inj (Option.some.inj g2)
  obtain ⟨n1, hM⟩ := differs_create h c1 c2
  unfold putMining
  rw [n1.others _ hM]
  exact n1.set hM _

/-- Every instruction that succeeds in both worlds. -/
theorem differs_exec (h : Differs env x k v w) (hv : Wf env now v) (hw : Wf env now w) (hpda : env.IsPda k)
    {accs : List AccountInfo} (hs : RealSigners accs) {i : Ix} (cv : NotPoolAsMining env v accs i)
    {v' w' : World} {r r' : Option Nat} (h1 : exec env now v accs i = .ok (v', r)) (h2 : exec env now w accs i = .ok (w', r')) :
    DelegatedInstead env x k v' w' ∧ r = r' := by
  rw [exec_ok] at h1 h2
  obtain ⟨h1, -⟩ := h1
  obtain ⟨h2, -⟩ := h2
  cases i with
  | claim =>
    simp only [process, res_bind_ok, res_pure_ok, Prod.mk.injEq, Prod.exists] at h1 h2
    obtain ⟨v1, n, h1, rfl, rfl⟩ := h1
    obtain ⟨w1, n', h2, rfl, rfl⟩ := h2
    obtain ⟨g1, rfl⟩ := differs_claim h hv hs h1 h2
    exact ⟨g1.instead, rfl⟩
  | depositMining a l o dl =>
    simp only [process, res_bind_ok, res_pure_ok, Prod.mk.injEq] at h1 h2
    obtain ⟨v1, h1, rfl, rfl⟩ := h1
    obtain ⟨w1, h2, rfl, rfl⟩ := h2
    obtain ⟨P, M, A, D, p, m, d, p', m', d', c1, o1, rfl⟩ := processDepositMining_ok h1
    obtain ⟨P', M', A', D', q, n, e, q', n', e', c2, o2, rfl⟩ := processDepositMining_ok h2
    exact ⟨(differs_call (i := .depositMining a l o dl) h hv hw hs c1 c2 o1 o2).instead, rfl⟩
  | withdrawMining a o dl =>
    simp only [process, res_bind_ok, res_pure_ok, Prod.mk.injEq] at h1 h2
    obtain ⟨v1, h1, rfl, rfl⟩ := h1
    obtain ⟨w1, h2, rfl, rfl⟩ := h2
    obtain ⟨P, M, A, D, p, m, d, p', m', d', c1, o1, rfl⟩ := processWithdrawMining_ok h1
    obtain ⟨P', M', A', D', q, n, e, q', n', e', c2, o2, rfl⟩ := processWithdrawMining_ok h2
    exact ⟨(differs_call (i := .withdrawMining a o dl) h hv hw hs c1 c2 o1 o2).instead, rfl⟩
  | extendStake ol nl ts b a o dl =>
    simp only [process, res_bind_ok, res_pure_ok, Prod.mk.injEq] at h1 h2
    obtain ⟨v1, h1, rfl, rfl⟩ := h1
    obtain ⟨w1, h2, rfl, rfl⟩ := h2
    obtain ⟨P, M, A, D, p, m, d, p', m', d', c1, o1, rfl⟩ := processExtendStake_ok h1
    obtain ⟨P', M', A', D', q, n, e, q', n', e', c2, o2, rfl⟩ := processExtendStake_ok h2
    exact ⟨(differs_call (i := .extendStake ol nl ts b a o dl) h hv hw hs c1 c2 o1 o2).instead, rfl⟩
  | initializePool f d =>
    simp only [process, res_bind_ok, res_pure_ok, Prod.mk.injEq] at h1 h2
    obtain ⟨v1, h1, rfl, rfl⟩ := h1
    obtain ⟨w1, h2, rfl, rfl⟩ := h2
    exact ⟨(differs_initPool h hv hpda h1 h2).instead, rfl⟩
  | fillVault r e =>
    simp only [process, res_bind_ok, res_pure_ok, Prod.mk.injEq] at h1 h2
    obtain ⟨v1, h1, rfl, rfl⟩ := h1
    obtain ⟨w1, h2, rfl, rfl⟩ := h2
    exact ⟨(differs_fill h hv hs h1 h2).instead, rfl⟩
  | initializeMining o =>
    simp only [process, res_bind_ok, res_pure_ok, Prod.mk.injEq] at h1 h2
    obtain ⟨v1, h1, rfl, rfl⟩ := h1
    obtain ⟨w1, h2, rfl, rfl⟩ := h2
    exact ⟨(differs_initMining h h1 h2).instead, rfl⟩
  | distributeRewards =>
    simp only [process, res_bind_ok, res_pure_ok, Prod.mk.injEq] at h1 h2
    obtain ⟨v1, h1, rfl, rfl⟩ := h1
    obtain ⟨w1, h2, rfl, rfl⟩ := h2
    exact ⟨(differs_distribute h hv hs h1 h2).instead, rfl⟩
  | closeMining =>
    simp only [process, res_bind_ok, res_pure_ok, Prod.mk.injEq] at h1 h2
    obtain ⟨v1, h1, rfl, rfl⟩ := h1
    obtain ⟨w1, h2, rfl, rfl⟩ := h2
    exact ⟨differs_close h h1 h2, rfl⟩
  | changeDelegate a nd =>
    simp only [process, res_bind_ok, res_pure_ok, Prod.mk.injEq] at h1 h2
    obtain ⟨v1, h1, rfl, rfl⟩ := h1
    obtain ⟨w1, h2, rfl, rfl⟩ := h2
    exact ⟨(differs_redelegate h hv hs cv h1 h2).instead, rfl⟩
  | slash o n mu ex =>
    simp only [process, res_bind_ok, res_pure_ok, Prod.mk.injEq] at h1 h2
    obtain ⟨v1, h1, rfl, rfl⟩ := h1
    obtain ⟨w1, h2, rfl, rfl⟩ := h2
    exact ⟨(differs_slash h hv hw hs h1 h2).instead, rfl⟩
  | decreaseRewards o n =>
    simp only [process, res_bind_ok, res_pure_ok, Prod.mk.injEq] at h1 h2
    obtain ⟨v1, h1, rfl, rfl⟩ := h1
    obtain ⟨w1, h2, rfl, rfl⟩ := h2
    exact ⟨(differs_decrease h h1 h2).instead, rfl⟩

end

/-- An event that happens in both histories. -/
theorem differs_event {x : Nat} {k : Key} {s t : Chain} {e e' : Event} (hnow : s.now = t.now)
    (hn : DelegatedInstead env x k s.world t.world) (hws : Wf env s.now s.world) (hwt : Wf env t.now t.world) (hpda : env.IsPda k)
    (he : SameElsewhere env k e e') (ha : goesThrough env s e = goesThrough env t e') (hv : e.Valid env s)
    (hv' : e'.Valid env t) (hc : CleanEvent env s e) :
    (s.apply env e).now = (t.apply env e').now ∧
      DelegatedInstead env x k (s.apply env e).world (t.apply env e').world ∧
      ∀ j, claimedBy env j s e = claimedBy env j t e' := by
  rcases hn with hn | ⟨h1, h2⟩
  · obtain ⟨a, b⟩ := s
    obtain ⟨a', b'⟩ := t
    obtain rfl : a = a' := by
      first | exact hnow | exact hn
    obtain rfl : b = b' := by
      first | exact hnow | exact hn
    rcases he with rfl | ⟨w, w', rfl, rfl, hx, ho, hl⟩
    · exact ⟨rfl, Or.inl rfl, fun _ => rfl⟩
    · refine ⟨rfl, Or.inl ?_, fun _ => rfl⟩
      show w = w'
      funext j
      by_cases hj : j = k
      · subst hj
        have hk : ∀ u : World, (u j).owner = env.programId ∨ (u j).owner = env.tokenProgram ∨ (u j).owner = env.systemProgram →
            ExtOk env u w → ExtOk env u w' → w j = w' j := by
          intro u hu hv hv'
          rcases hu with e | e | e
          · obtain ⟨-, -, a3, -⟩ := hv.program_owned j e
            obtain ⟨-, -, b3, -⟩ := hv'.program_owned j e
            rw [hl, b3, ← a3]
          · rcases hv.pda_token j hpda e with g | g
            · exact absurd (ho.symm.trans g) env.program_ne_token
            · exact absurd (ho.symm.trans g) env.program_ne_system
          · exact absurd (ho.symm.trans (hv.pda_system j hpda e).1) env.program_ne_system
        refine hk _ ?_ hv hv'
        rcases (hws j).pda hpda with ⟨e, -⟩ | e | e
        · exact Or.inl e
        · exact Or.inr (Or.inl e)
        · exact Or.inr (Or.inr e)
      · exact hx j hj
  · have hd : Differs env x k s.world t.world := ⟨h1, h2⟩
    obtain ⟨m, n, m1, m2, m3⟩ := h2
    rcases he with rfl | ⟨w, w', rfl, rfl, hx, ho, hl⟩
    · cases e with
      | ix accs i =>
        cases hs1 : exec env s.now s.world accs i with
        | error er =>
          have h2 : ∃ er', exec env t.now t.world accs i = .error er' := by
            have ha' : succeeded env s accs i = succeeded env t accs i := ha
            cases hx : exec env t.now t.world accs i with
            | error er' => exact ⟨er', rfl⟩
            | ok r => simp [succeeded, hs1, hx] at ha'
          obtain ⟨er', h2⟩ := h2
          rw [apply_ix_error hs1, apply_ix_error h2]
          refine ⟨hnow, hd.instead, fun j => ?_⟩
          simp only [claimedBy, hs1, h2]
        | ok r =>
          obtain ⟨v1, r⟩ := r
          have h2 : ∃ r', exec env t.now t.world accs i = .ok r' := by
            have ha' : succeeded env s accs i = succeeded env t accs i := ha
            cases hx : exec env t.now t.world accs i with
            | error er' => simp [succeeded, hs1, hx] at ha'
            | ok r => exact ⟨r, rfl⟩
          obtain ⟨⟨w1, r'⟩, h2⟩ := h2
          rw [apply_ix_ok hs1, apply_ix_ok h2]
          have h2' := h2
          rw [← hnow] at h2' hwt
          obtain ⟨g1, rfl⟩ := differs_exec hd hws hwt hpda hv hc hs1 h2'
          refine ⟨hnow, g1, fun j => ?_⟩
          simp only [claimedBy, hs1, h2]
      | tick d => exact ⟨by show s.now + d = t.now + d; rw [hnow], hd.instead, fun _ => rfl⟩
      | gc j =>
        refine ⟨hnow, ?_, fun _ => rfl⟩
        show DelegatedInstead env x k (s.world.set j _) (t.world.set j _)
        by_cases hj : j = k
        · refine Or.inl ?_
          funext i
          by_cases hi : i = j
          · subst hi; rw [world_set_same, world_set_same]
          · rw [world_set_ne _ _ hi, world_set_ne _ _ hi]; exact h1 i (by rw [← hj]; exact hi)
        · exact (hd.set hj _).instead
      | ext w => exact ⟨hnow, Or.inl rfl, fun _ => rfl⟩
    · refine ⟨hnow, Or.inr ⟨hx, m, n, ?_, ?_, m3⟩, fun _ => rfl⟩
      · obtain ⟨a1, a2, a3, a4⟩ := hv.program_owned k m1.1
        exact ⟨a1.trans m1.1, a3.trans m1.2⟩
      · have ho' : (t.world k).owner = env.programId := by rw [m2]; exact m1.1
        obtain ⟨b1, b2, b3, b4⟩ := hv'.program_owned k ho'
        show w' k = _
        rw [hl, b3, m2]
        rfl

/-- Two histories with the same events, from states that differ in how one mining came to some of its stake. -/
theorem differs_runs {x : Nat} {k : Key} (hpda : env.IsPda k) : ∀ {es es' : List Event} {s t s' t' : Chain},
    Alike env (SameElsewhere env k) s t es es' → RunsWith env (CleanEvent env) s es s' →
    RunsWith env (CleanEvent env) t es' t' → Wf env s.now s.world → Wf env t.now t.world → s.now = t.now →
    DelegatedInstead env x k s.world t.world →
    s'.now = t'.now ∧ DelegatedInstead env x k s'.world t'.world ∧
      ∀ j, totalIn env (claimedBy env j) s es = totalIn env (claimedBy env j) t es'
  | [], [], _, _, _, _, _, r1, r2, _, _, hnow, hn => by
    cases r1; cases r2
    exact ⟨hnow, hn, fun _ => rfl⟩
  | [], _ :: _, _, _, _, _, h, _, _, _, _, _, _ => h.elim
  | _ :: _, [], _, _, _, _, h, _, _, _, _, _, _ => h.elim
  | e :: es, e' :: es', s, t, _, _, ⟨he, ha, h⟩, r1, r2, hws, hwt, hnow, hn => by
    cases r1 with
    | cons v1 c1 r1 =>
    cases r2 with
    | cons v2 c2 r2 =>
      obtain ⟨g1, g2, g3⟩ := differs_event hnow hn hws hwt hpda he ha v1 v2 c1
      obtain ⟨k1, k2, k3⟩ := differs_runs hpda h r1 r2 (wf_apply hws v1 c1) (wf_apply hwt v2 c2) g1 g2
      exact ⟨k1, k2, fun j => by simp only [totalIn, g3 j, k3 j]⟩

end Verif
