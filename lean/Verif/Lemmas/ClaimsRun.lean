import Verif.Lemmas.Claims
/-!
Histories that differ in the claims of one staker.
-/

namespace Verif

open Spec

variable {env : Env}

/-- Two worlds that differ at most in token accounts and in what the mining at `k` has been paid. -/
structure Near (env : Env) (now : Nat) (k : Key) (v w : World) : Prop where
  others : ∀ j, j ≠ k → SameOrTokens env (v j) (w j)
  mining : ∃ m n, MiningAt env v k m ∧ MiningAt env w k n ∧ StakeLike now m n
  lamports : (v k).lamports = (w k).lamports
  len : (v k).len = (w k).len
  alive : 0 < (v k).lamports

theorem SameOrTokens.refl (a : Account) : SameOrTokens env a a := Or.inl rfl

theorem SameOrTokens.symm {a b : Account} (h : SameOrTokens env a b) : SameOrTokens env b a :=
  h.elim (fun h => Or.inl h.symm) fun h => Or.inr ⟨h.2, h.1⟩

namespace Near

variable {now : Nat} {k : Key} {v w : World}

theorem symm (h : Near env now k v w) : Near env now k w v := by
  obtain ⟨m, n, h1, h2, h3⟩ := h.mining
  exact ⟨fun j hj => SameOrTokens.symm (h.others j hj), ⟨n, m, h2, h1, h3.symm⟩, h.lamports.symm, h.len.symm,
    by rw [← h.lamports]; exact h.alive⟩

theorem later (h : Near env now k v w) {t : Nat} (ht : now ≤ t) : Near env t k v w := by
  obtain ⟨m, n, h1, h2, h3⟩ := h.mining
  exact ⟨h.others, ⟨m, n, h1, h2, h3.later (by unfold midnight; omega)⟩, h.lamports, h.len, h.alive⟩

theorem eq_of_owner (h : Near env now k v w) {j : Key} (hj : j ≠ k) (ho : (v j).owner ≠ env.tokenProgram) : v j = w j :=
  (h.others j hj).elim id fun hh => absurd hh.1 ho

theorem eq_program (h : Near env now k v w) {j : Key} (hj : j ≠ k) (ho : (v j).owner = env.programId) : v j = w j :=
  h.eq_of_owner hj fun hh => env.program_ne_token (ho.symm.trans hh)

theorem ne_pool (h : Near env now k v w) {j : Key} {p : Pool} (hp : (v j).content = .pool p) : j ≠ k := by
  obtain ⟨m, n, h1, -⟩ := h.mining
  rintro rfl
  rw [h1.2] at hp; cases hp

theorem ne_system (h : Near env now k v w) {j : Key} (ho : (v j).owner = env.systemProgram) : j ≠ k := by
  obtain ⟨m, n, h1, -⟩ := h.mining
  rintro rfl
  exact env.program_ne_system (h1.1.symm.trans ho)

theorem ne_token (h : Near env now k v w) {j : Key} (ho : (v j).owner = env.tokenProgram) : j ≠ k := by
  obtain ⟨m, n, h1, -⟩ := h.mining
  rintro rfl
  exact env.program_ne_token (h1.1.symm.trans ho)

/-- The same change to both. -/
theorem set (h : Near env now k v w) {j : Key} (hj : j ≠ k) {a b : Account} (hab : SameOrTokens env a b) :
    Near env now k (v.set j a) (w.set j b) := by
  have hk : k ≠ j := Ne.symm hj
  obtain ⟨m, n, h1, h2, h3⟩ := h.mining
  refine ⟨fun i hi => ?_, ⟨m, n, (miningAt_congr (world_set_ne _ _ hk)).mpr h1,
    (miningAt_congr (world_set_ne _ _ hk)).mpr h2, h3⟩, ?_, ?_, ?_⟩
  · by_cases e : i = j
    · subst e; rw [world_set_same, world_set_same]; exact hab
    · rw [world_set_ne _ _ e, world_set_ne _ _ e]; exact h.others i hi
  · rw [world_set_ne _ _ hk, world_set_ne _ _ hk]; exact h.lamports
  · rw [world_set_ne _ _ hk, world_set_ne _ _ hk]; exact h.len
  · rw [world_set_ne _ _ hk]; exact h.alive

theorem putPool (h : Near env now k v w) {j : Key} (hj : j ≠ k) (ho : (v j).owner = env.programId) (p : Pool) :
    Near env now k (putPool v j p) (putPool w j p) := by
  unfold Verif.putPool
  rw [h.eq_program hj ho]
  exact h.set hj (Or.inl rfl)

theorem storeMining_eq {a : Account} {m : Mining} (h : a.content = .mining m) (m' : Mining) :
    storeMining env a m' = { a with content := .mining m' } := by
  unfold storeMining
  split
  · rename_i hv
    rw [h] at hv
    simp only [viewMining, Option.some.injEq] at hv
    subst hv
    cases a; simp only at h; subst h; rfl
  · rw [h]

theorem putMining (h : Near env now k v w) {j : Key} (ho : (v j).owner = env.programId) {m' n' : Mining}
    (h1 : j ≠ k → m' = n') (h2 : j = k → StakeLike now m' n') :
    Near env now k (putMining env v j m') (putMining env w j n') := by
  by_cases hj : j = k
  · subst hj
    obtain ⟨m, n, g1, g2, -⟩ := h.mining
    unfold Verif.putMining
    rw [storeMining_eq g1.2, storeMining_eq g2.2]
    refine ⟨fun i hi => ?_, ⟨m', n', ⟨?_, ?_⟩, ⟨?_, ?_⟩, h2 rfl⟩, ?_, ?_, ?_⟩
    · rw [world_set_ne _ _ hi, world_set_ne _ _ hi]; exact h.others i hi
    · rw [world_set_same]; exact g1.1
    · rw [world_set_same]
    · rw [world_set_same]; exact g2.1
    · rw [world_set_same]
    · rw [world_set_same, world_set_same]; exact h.lamports
    · rw [world_set_same, world_set_same]; exact h.len
    · rw [world_set_same]; exact h.alive
  · obtain rfl := h1 hj
    unfold Verif.putMining
    rw [h.eq_program hj ho]
    exact h.set hj (Or.inl rfl)

theorem putDelegate (h : Near env now k v w) {j : Key} (ho : (v j).owner = env.programId) {d e : Option Mining}
    (h1 : j ≠ k → d = e) (h2 : OptRest d e) : Near env now k (putDelegate env v j d) (putDelegate env w j e) := by
  cases d with
  | none =>
    cases e with
    | none => exact h
    | some _ => exact h2.elim
  | some x =>
    cases e with
    | none => exact h2.elim
    | some y => exact h.putMining ho (fun hj => Option.some.inj (h1 hj)) fun _ => Rest.same h2 now

/-- Token accounts may change. -/
theorem tokens (h : Near env now k v w) {v' : World}
    (ht : ∀ j, v' j = v j ∨ (v j).owner = env.tokenProgram ∧ (v' j).owner = env.tokenProgram) : Near env now k v' w := by
  obtain ⟨m, n, h1, h2, h3⟩ := h.mining
  have hk : v' k = v k := (ht k).elim id fun hh => absurd rfl (h.ne_token hh.1)
  refine ⟨fun j hj => ?_, ⟨m, n, (miningAt_congr hk).mpr h1, h2, h3⟩, by rw [hk]; exact h.lamports,
    by rw [hk]; exact h.len, by rw [hk]; exact h.alive⟩
  rcases ht j with e | ⟨e1, e2⟩
  · rw [e]; exact h.others j hj
  · rcases h.others j hj with e | ⟨-, e3⟩
    · exact Or.inr ⟨e2, by rw [← e]; exact e1⟩
    · exact Or.inr ⟨e2, e3⟩

end Near

theorem transfer_tokens {w w' : World} {src dst auth : Key} {n : Nat} (h : TransferEffect env w w' src dst auth n) (j : Key) :
    w' j = w j ∨ (w j).owner = env.tokenProgram ∧ (w' j).owner = env.tokenProgram := by
  by_cases h1 : j = src
  · obtain ⟨t, t', a, b, -⟩ := h.srcTok
    subst h1; exact Or.inr ⟨a.1, b.1⟩
  · by_cases h2 : j = dst
    · obtain ⟨t, t', a, b, -⟩ := h.dstTok
      subst h2; exact Or.inr ⟨a.1, b.1⟩
    · exact Or.inl (h.frame j h1 h2)

theorem spl_tokens {w w' : World} {src dst auth : AccountInfo} {n : Nat} (h : splTransfer env w src dst auth n = .ok w')
    (j : Key) : w' j = w j ∨ (w j).owner = env.tokenProgram ∧ (w' j).owner = env.tokenProgram :=
  transfer_tokens (transfer_effect h) j

section
variable {now : Nat} {k : Key} {v w : World}

/-- What is read of a mining in the two worlds. -/
theorem Near.read (h : Near env now k v w) {j : Key} (ho : (v j).owner = env.programId) {m n : Mining}
    (h1 : viewMining env (v j).content = some m) (h2 : viewMining env (w j).content = some n) :
    StakeLike now m n ∧ (j ≠ k → m = n) := by
  by_cases hj : j = k
  · subst hj
    obtain ⟨a, b, g1, g2, g3⟩ := h.mining
    rw [g1.2] at h1; rw [g2.2] at h2
    cases h1; cases h2
    exact ⟨g3, fun hh => absurd rfl hh⟩
  · rw [← h.eq_program hj ho, h1] at h2
    cases h2
    exact ⟨.refl _ _, fun _ => rfl⟩

theorem Near.readPool (h : Near env now k v w) {j : Key} (hj : j ≠ k) (ho : (v j).owner = env.programId) {p q : Pool}
    (h1 : viewPool env (v j).content = some p) (h2 : viewPool env (w j).content = some q) : p = q := by
  rw [← h.eq_program hj ho, h1] at h2
  exact Option.some.inj h2

theorem putPool_owner (v : World) (j : Key) (p : Pool) (i : Key) : (putPool v j p i).owner = (v i).owner := by
  unfold putPool
  by_cases e : i = j
  · subst e; rw [world_set_same]; rfl
  · rw [world_set_ne _ _ e]

theorem putMining_owner (v : World) (j : Key) (m : Mining) (i : Key) : (putMining env v j m i).owner = (v i).owner := by
  unfold putMining
  by_cases e : i = j
  · subst e; rw [world_set_same]; unfold storeMining
    split
    · rfl
    · split <;> rfl
  · rw [world_set_ne _ _ e]

theorem putDelegate_owner (v : World) (j : Key) (d : Option Mining) (i : Key) :
    (putDelegate env v j d i).owner = (v i).owner := by
  cases d with
  | none => rfl
  | some x => exact putMining_owner _ _ _ _

/-- An instruction on the stake of one mining. -/
theorem near_stake (h : Near env now k v w) (hv : Wf env now v) (hw : Wf env now w) {P M D A : AccountInfo} {o : Key}
    {p q p1 q1 : Pool} {m n m' n' : Mining} {d e d' e' : Option Mining} {i : Ix} (hA : A.key ≠ 0)
    (vP : (v P.key).owner = env.programId) (wP : (w P.key).owner = env.programId)
    (vM : (v M.key).owner = env.programId) (wM : (w M.key).owner = env.programId)
    (vD : (v D.key).owner = env.programId) (hne : M.key ≠ P.key)
    (l1 : PoolAndMining env v o M.key P.key A.key p m) (l2 : PoolAndMining env w o M.key P.key A.key q n)
    (hdo : ∀ x, d = some x → MiningOk x) (heo : ∀ x, e = some x → MiningOk x) (hde : OptStake now d e)
    (hsame : D.key ≠ k → d = e)
    (o1 : StakeOp env.caps now p m d p1 m' d' i) (o2 : StakeOp env.caps now q n e q1 n' e' i) :
    Near env now k (putDelegate env (putMining env (putPool v P.key p1) M.key m') D.key d')
      (putDelegate env (putMining env (putPool w P.key q1) M.key n') D.key e') := by
  obtain ⟨a1, a2⟩ := pool_slot (hv P.key) vP l1.plen l1.pview hA (Or.inl l1.auth)
  have hPk : P.key ≠ k := h.ne_pool a1
  obtain rfl := h.readPool hPk vP l1.pview l2.pview
  obtain ⟨b1, b2⟩ := h.read vM l1.mview l2.mview
  obtain ⟨c1, -⟩ := mining_slot hv vM vP l1
  obtain ⟨c2, -⟩ := mining_slot hw wM wP l2
  obtain ⟨rfl, r2, r3, r4, r5⟩ := o1.rest a2.ok c1 c2 hdo heo b1 hde o2
  have n1 := (h.putPool hPk vP p1).putMining (j := M.key) (by rw [putPool_ne _ _ hne]; exact vM)
    (fun hh => r3 (b2 hh)) (fun _ => r2.same now)
  exact n1.putDelegate (by rw [putMining_owner, putPool_owner]; exact vD) (fun hh => r5 (hsame hh)) r4

/-- The delegate that is read in the two worlds. -/
theorem near_delegate (h : Near env now k v w) (hv : Wf env now v) (hw : Wf env now w) {M D : AccountInfo} {dl P : Key}
    {d e : Option Mining} (vD : (v D.key).owner = env.programId) (wD : (w D.key).owner = env.programId)
    (h1 : (M.key = D.key ∧ d = none) ∨ (M.key ≠ D.key ∧ ∃ x, d = some x ∧ DelegateOk env v D.key dl P x))
    (h2 : (M.key = D.key ∧ e = none) ∨ (M.key ≠ D.key ∧ ∃ x, e = some x ∧ DelegateOk env w D.key dl P x)) :
    (∀ x, d = some x → MiningOk x) ∧ (∀ x, e = some x → MiningOk x) ∧ OptStake now d e ∧ (D.key ≠ k → d = e) := by
  rcases h1 with ⟨a, rfl⟩ | ⟨a, x, rfl, hx⟩
  · rcases h2 with ⟨-, rfl⟩ | ⟨b, -⟩
    · exact ⟨by simp, by simp, trivial, fun _ => rfl⟩
    · exact absurd a b
  · rcases h2 with ⟨b, -⟩ | ⟨-, y, rfl, hy⟩
    · exact absurd b a
    · obtain ⟨r1, r2⟩ := h.read vD hx.view hy.view
      refine ⟨?_, ?_, r1, fun hh => by rw [r2 hh]⟩
      · rintro _ ⟨⟩; exact (delegate_slot hv vD hx).1
      · rintro _ ⟨⟩; exact (delegate_slot hw wD hy).1

theorem near_call (h : Near env now k v w) (hv : Wf env now v) (hw : Wf env now w) {accs : List AccountInfo}
    (hs : RealSigners accs) {o dl : Key} {P M A D P' M' A' D' : AccountInfo} {p q p1 q1 : Pool} {m n m' n' : Mining}
    {d e d' e' : Option Mining} {i : Ix} (c1 : StakeCall env v accs o dl P M A D p m d)
    (c2 : StakeCall env w accs o dl P' M' A' D' q n e)
    (o1 : StakeOp env.caps now p m d p1 m' d' i) (o2 : StakeOp env.caps now q n e q1 n' e' i) :
    Near env now k (putDelegate env (putMining env (putPool v P.key p1) M.key m') D.key d')
      (putDelegate env (putMining env (putPool w P'.key q1) M'.key n') D'.key e') := by
  obtain ⟨rest, e1⟩ := c1.accs_eq
  obtain ⟨rest', e2⟩ := c2.accs_eq
  rw [e1] at e2
  simp only [List.cons.injEq] at e2
  obtain ⟨rfl, rfl, rfl, rfl, -⟩ := e2
  obtain ⟨d1, d2, d3, d4⟩ := near_delegate h hv hw c1.del_owned c2.del_owned c1.delegate c2.delegate
  exact near_stake h hv hw (hs A (by rw [e1]; simp) c1.signed) c1.pool_owned c2.pool_owned c1.mining_owned c2.mining_owned
    c1.del_owned c1.ne c1.loaded c2.loaded d1 d2 d3 d4 o1 o2

theorem near_redelegate (h : Near env now k v w) (hv : Wf env now v) (hw : Wf env now w) {accs : List AccountInfo}
    (hs : RealSigners accs) {a : Nat} {nd : Key} (cv : NotPoolAsMining env v accs (.changeDelegate a nd))
    (cw : NotPoolAsMining env w accs (.changeDelegate a nd)) {v' w' : World}
    (h1 : processChangeDelegate env now v accs a nd = .ok v') (h2 : processChangeDelegate env now w accs a nd = .ok w') :
    Near env now k v' w' := by
  obtain ⟨P, M, A, O, Old, New, rest, p, m, nD, oD, p', m', nD', oD', rfl, vP, vM, hA, hO, vO, vN, hne, hmp, l1,
      hn, ho, hd, rfl⟩ := processChangeDelegate_ok h1
  obtain ⟨P', M', A', O', Old', New', rest', q, n, nE, oE, q', n', nE', oE', e2, wP, wM, -, -, wO, wN, -, -, l2,
      hn2, ho2, hd2, rfl⟩ := processChangeDelegate_ok h2
  simp only [List.cons.injEq] at e2
  obtain ⟨rfl, rfl, rfl, rfl, rfl, rfl, rfl⟩ := e2
  have hA0 := hs A (by simp) hA
  obtain ⟨a1, a2⟩ := pool_slot (hv P.key) vP l1.plen l1.pview hA0 (Or.inl l1.auth)
  have hPk : P.key ≠ k := h.ne_pool a1
  obtain rfl := h.readPool hPk vP l1.pview l2.pview
  obtain ⟨b1, b2⟩ := h.read vM l1.mview l2.mview
  obtain ⟨c1, -⟩ := mining_slot hv vM vP l1
  obtain ⟨c2, -⟩ := mining_slot hw wM wP l2
  obtain ⟨n1, n2, n3, n4⟩ := near_delegate h hv hw vN wN hn hn2
  have old : (∀ x, oD = some x → MiningOk x) ∧ (∀ x, oE = some x → MiningOk x) ∧ OptStake now oD oE ∧
      (Old.key ≠ k → oD = oE) := by
    rcases ho with ⟨a, rfl⟩ | ⟨a, x, rfl, -, -, hx⟩
    · rcases ho2 with ⟨-, rfl⟩ | ⟨b, -⟩
      · exact ⟨by simp, by simp, trivial, fun _ => rfl⟩
      · exact absurd a b
    · rcases ho2 with ⟨b, -⟩ | ⟨-, y, rfl, -, -, hy⟩
      · exact absurd b a
      · obtain ⟨r1, r2⟩ := h.read vO hx hy
        refine ⟨?_, ?_, r1, fun hh => by rw [r2 hh]⟩
        · rintro _ ⟨⟩
          exact (mining_view (hv Old.key) vO hx fun q hq => cv Old (by simp) q ⟨vO, hq⟩).1
        · rintro _ ⟨⟩
          exact (mining_view (hw Old.key) wO hy fun q hq => cw Old (by simp) q ⟨wO, hq⟩).1
  obtain ⟨o1, o2, o3, o4⟩ := old
  rw [changeDelegate_ok] at hd hd2
  obtain ⟨r1, p1, x1, y1⟩ := hd
  obtain ⟨r2, q1, x2, y2⟩ := hd2
  have hr := refresh_rest a2.ok.history c1 c2 b1 r1 r2
  have hr' : m = n → m' = n' := by rintro rfl; rw [r1] at r2; cases r2; rfl
  obtain ⟨rfl, s2, s3⟩ := sub_rest a2.ok.history o1 o2 o3 x1 x2
  obtain ⟨t1, -⟩ := withSub_same a2.ok o1 x1
  obtain ⟨rfl, s5, s6⟩ := add_rest t1.ok.history n1 n2 n3 y1 y2
  refine (((h.putPool hPk vP p').putMining ?_ (fun hh => hr' (b2 hh)) fun _ => hr.same now).putDelegate ?_
    (fun hh => s3 (o4 hh)) s2).putDelegate ?_ (fun hh => s6 (n4 hh)) s5
  · rw [putPool_owner]; exact vM
  · rw [putMining_owner, putPool_owner]; exact vO
  · rw [putDelegate_owner, putMining_owner, putPool_owner]; exact vN

theorem near_slash (h : Near env now k v w) (hv : Wf env now v) (hw : Wf env now w) {accs : List AccountInfo}
    (hs : RealSigners accs) {o : Key} {n mu : Nat} {ex : Option Nat} {v' w' : World}
    (h1 : processSlash env now v accs o n mu ex = .ok v') (h2 : processSlash env now w accs o n mu ex = .ok w') :
    Near env now k v' w' := by
  obtain ⟨A, P, M, rest, p, m, p', m', rfl, hsig, vP, vM, hne, l1, o1, rfl⟩ := processSlash_ok h1
  obtain ⟨A', P', M', rest', q, n1, q', n', e2, -, wP, wM, -, l2, o2, rfl⟩ := processSlash_ok h2
  simp only [List.cons.injEq] at e2
  obtain ⟨rfl, rfl, rfl, rfl⟩ := e2
  exact near_stake (D := M) (d := none) (e := none) (d' := none) (e' := none) (i := .slash o n mu ex) h hv hw
    (hs A (by simp) hsig) vP wP vM wM vM hne l1 l2 (by simp) (by simp) trivial (fun _ => rfl) ⟨o1, rfl, rfl⟩ ⟨o2, rfl, rfl⟩

theorem near_decrease (h : Near env now k v w) {accs : List AccountInfo} {o : Key} {n : Nat} {v' w' : World}
    (hk : miningArg accs (.decreaseRewards o n) ≠ some k)
    (h1 : processDecreaseRewards env v accs o n = .ok v') (h2 : processDecreaseRewards env w accs o n = .ok w') :
    Near env now k v' w' := by
  obtain ⟨A, P, M, rest, p, m, m', rfl, hsig, vP, vM, hne, l1, o1, rfl⟩ := processDecreaseRewards_ok h1
  obtain ⟨A', P', M', rest', q, n1, n', e2, -, wP, wM, -, l2, o2, rfl⟩ := processDecreaseRewards_ok h2
  simp only [List.cons.injEq] at e2
  obtain ⟨rfl, rfl, rfl, rfl⟩ := e2
  have hM : M.key ≠ k := fun hh => hk (by rw [← hh]; rfl)
  obtain rfl := (h.read vM l1.mview l2.mview).2 hM
  rw [o1] at o2
  obtain rfl := Except.ok.inj o2
  exact h.putMining vM (fun _ => rfl) fun hh => absurd hh hM

/-- A claim from the mining at `k` in one of the worlds. -/
theorem near_claim_one (h : Near env now k v w) (hv : Wf env now v) {accs : List AccountInfo} (hs : RealSigners accs)
    (cv : NotPoolAsMining env v accs .claim) (hk : miningArg accs .claim = some k) {v' : World} {n : Nat}
    (h1 : processClaim env now v accs = .ok (v', n)) : Near env now k v' w := by
  obtain ⟨P, T, V, M, O, A, U, K, rest, ut, p, m, m1, rfl, vP, -, -, vM, hO, hA, -, -, -, -, g1, g2, g3, hne, g4, g5, g6, g7, -,
    r1, -, hw'⟩ := processClaim_ok h1
  obtain rfl : M.key = k := Option.some.inj hk
  obtain ⟨a1, a2⟩ := pool_slot (hv P.key) vP g1 g2 (hs A (by simp) hA) (Or.inl g3)
  obtain ⟨c1, -⟩ := mining_view (hv M.key) vM g5 fun q hq => cv M (by simp) q ⟨vM, hq⟩
  obtain ⟨x, y, e1, e2, e3⟩ := h.mining
  have : x = m := by rw [e1.2] at g5; exact Option.some.inj g5
  subst this
  have hr : StakeLike now m1.claim x := (Rest.same ⟨m1.index, 0, rfl⟩ now).trans (refresh_like a2.ok.history c1 r1)
  have hn : Near env now M.key (putMining env v M.key m1.claim) w := by
    unfold putMining
    rw [Near.storeMining_eq e1.2]
    refine ⟨fun i hi => ?_, ⟨m1.claim, y, ⟨?_, ?_⟩, e2, hr.trans e3⟩, ?_, ?_, ?_⟩
    · rw [world_set_ne _ _ hi]; exact h.others i hi
    · rw [world_set_same]; exact e1.1
    · rw [world_set_same]
    · rw [world_set_same]; exact h.lamports
    · rw [world_set_same]; exact h.len
    · rw [world_set_same]; exact h.alive
  rcases hw' with ⟨-, ht⟩ | ⟨-, rfl⟩
  · exact hn.tokens fun j => spl_tokens ht j
  · exact hn

/-- A claim from another mining. -/
theorem near_claim (h : Near env now k v w) (hv : Wf env now v) {accs : List AccountInfo} (hs : RealSigners accs)
    (hk : miningArg accs .claim ≠ some k) {v' w' : World} {n n' : Nat}
    (h1 : processClaim env now v accs = .ok (v', n)) (h2 : processClaim env now w accs = .ok (w', n')) :
    Near env now k v' w' ∧ n = n' := by
  obtain ⟨P, T, V, M, O, A, U, K, rest, ut, p, m, m1, rfl, vP, -, -, vM, hO, hA, -, -, -, -, g1, g2, g3, hne, g4, g5, g6, g7, -,
    r1, rfl, hv'⟩ := processClaim_ok h1
  obtain ⟨P', T', V', M', O', A', U', K', rest', ut', q, y, y1, e2, wP, -, -, wM, -, -, -, -, -, -, -, k2, -, -, -, k5, -, -, -,
    r2, rfl, hw'⟩ := processClaim_ok h2
  simp only [List.cons.injEq] at e2
  obtain ⟨rfl, rfl, rfl, rfl, rfl, rfl, rfl, rfl, rfl⟩ := e2
  have hM : M.key ≠ k := fun hh => hk (by rw [← hh]; rfl)
  obtain ⟨a1, a2⟩ := pool_slot (hv P.key) vP g1 g2 (hs A (by simp) hA) (Or.inl g3)
  obtain rfl := h.readPool (h.ne_pool a1) vP g2 k2
  obtain rfl := (h.read vM g5 k5).2 hM
  rw [r1] at r2
  obtain rfl := Except.ok.inj r2
  have hn : Near env now k (putMining env v M.key m1.claim) (putMining env w M.key m1.claim) :=
    h.putMining vM (fun _ => rfl) fun hh => absurd hh hM
  refine ⟨?_, rfl⟩
  have h3 : Near env now k v' (putMining env w M.key m1.claim) := by
    rcases hv' with ⟨-, ht⟩ | ⟨-, rfl⟩
    · exact hn.tokens fun j => spl_tokens ht j
    · exact hn
  rcases hw' with ⟨-, ht⟩ | ⟨-, rfl⟩
  · exact (h3.symm.tokens fun j => spl_tokens ht j).symm
  · exact h3

theorem near_fill (h : Near env now k v w) (hv : Wf env now v) {accs : List AccountInfo} (hs : RealSigners accs) {r e : Nat}
    {v' w' : World} (h1 : processFillVault env now v accs r e = .ok v') (h2 : processFillVault env now w accs r e = .ok w') :
    Near env now k v' w' := by
  obtain ⟨P, T, V, F, S, K, rest, p, rfl, vP, -, -, hF, -, -, -, g1, g2, g3, -, -, -, -, -, -, t1⟩ := processFillVault_ok h1
  obtain ⟨P', T', V', F', S', K', rest', q, e2, wP, -, -, -, -, -, -, -, k2, -, -, -, -, -, -, -, t2⟩ := processFillVault_ok h2
  simp only [List.cons.injEq] at e2
  obtain ⟨rfl, rfl, rfl, rfl, rfl, rfl, rfl⟩ := e2
  obtain ⟨a1, a2⟩ := pool_slot (hv P.key) vP g1 g2 (hs F (by simp) hF) (Or.inr (Or.inr g3))
  obtain rfl := h.readPool (h.ne_pool a1) vP g2 k2
  have hn := h.putPool (h.ne_pool a1) vP { p with distributionEndsAt := bod e, tokensAvailable := p.tokensAvailable + r }
  exact ((hn.tokens fun j => spl_tokens t1 j).symm.tokens fun j => spl_tokens t2 j).symm

theorem near_distribute (h : Near env now k v w) (hv : Wf env now v) {accs : List AccountInfo} (hs : RealSigners accs)
    {v' w' : World} (h1 : processDistributeRewards env now v accs = .ok v')
    (h2 : processDistributeRewards env now w accs = .ok w') : Near env now k v' w' := by
  obtain ⟨P, B, rest, p, p', r, rfl, vP, hB, g1, g2, g3, g4, g5, rfl⟩ := processDistributeRewards_ok h1
  obtain ⟨P', B', rest', q, q', r', e2, wP, -, -, k2, k3, -, k5, rfl⟩ := processDistributeRewards_ok h2
  simp only [List.cons.injEq] at e2
  obtain ⟨rfl, rfl, rfl⟩ := e2
  obtain ⟨a1, a2⟩ := pool_slot (hv P.key) vP g1 g2 (hs B (by simp) hB) (Or.inr (Or.inl g4))
  obtain rfl := h.readPool (h.ne_pool a1) vP g2 k2
  rw [g3] at k3
  obtain rfl := Except.ok.inj k3
  rw [g5] at k5
  obtain rfl := Except.ok.inj k5
  exact h.putPool (h.ne_pool a1) vP _

theorem near_close (h : Near env now k v w) {accs : List AccountInfo} (hk : miningArg accs .closeMining ≠ some k)
    {v' w' : World} (h1 : processCloseMining env now v accs = .ok v') (h2 : processCloseMining env now w accs = .ok w') :
    Near env now k v' w' := by
  obtain ⟨M, O, G, A, P, rest, p, m, m1, rfl, vM, -, vG, -, -, -, -, -, -, -, -, -, -, -, -, -, rfl⟩ := processCloseMining_ok h1
  obtain ⟨M', O', G', A', P', rest', q, n, n1, e2, wM, -, wG, -, -, -, -, -, -, -, -, -, -, -, -, -, rfl⟩ := processCloseMining_ok h2
  simp only [List.cons.injEq] at e2
  obtain ⟨rfl, rfl, rfl, rfl, rfl, rfl⟩ := e2
  have hM : M.key ≠ k := fun hh => hk (by rw [← hh]; rfl)
  have hG := h.ne_system vG
  have e1 := h.eq_program hM vM
  have e2 := h.eq_of_owner hG fun hh => env.token_ne_system (hh.symm.trans vG)
  rw [e1, e2]
  exact (h.set hG (Or.inl rfl)).set hM (Or.inl rfl)

theorem near_create (h : Near env now k v w) {Y V : AccountInfo} {len : Nat} {own : Key} {v' w' : World}
    (h1 : createAccount env v Y V len own = .ok v') (h2 : createAccount env w Y V len own = .ok w') :
    Near env now k v' w' ∧ V.key ≠ k ∧ v' V.key = w' V.key := by
  rw [createAccount_ok] at h1 h2
  obtain ⟨-, -, c1, c2, -, rfl⟩ := h1
  obtain ⟨-, -, -, -, -, rfl⟩ := h2
  have hY := h.ne_system c2.2
  have hV := h.ne_system c1.2.2
  rw [h.eq_of_owner hY fun hh => env.token_ne_system (hh.symm.trans c2.2)]
  refine ⟨(h.set hY (Or.inl rfl)).set hV (Or.inl rfl), hV, ?_⟩
  rw [world_set_same, world_set_same]

theorem near_initPool (h : Near env now k v w) (hv : Wf env now v) (hpda : env.IsPda k) {accs : List AccountInfo} {f d : Key}
    {v' w' : World} (h1 : processInitializePool env v accs f d = .ok v')
    (h2 : processInitializePool env w accs f d = .ok w') : Near env now k v' w' := by
  obtain ⟨P, T, V, Y, A, R, K, S, rest, p, bump, va, vb, rfl, vP, -, -, -, -, -, -, -, g9, -, -, g12, g13, c1, -, i1, rfl⟩ :=
    processInitializePool_ok h1
  obtain ⟨P', T', V', Y', A', R', K', S', rest', q, bump', wa, wb, e2, wP, -, -, -, -, -, -, -, -, -, -, k12, -, c2, -, i2, rfl⟩ :=
    processInitializePool_ok h2
  simp only [List.cons.injEq] at e2
  obtain ⟨rfl, rfl, rfl, rfl, rfl, rfl, rfl, rfl, rfl⟩ := e2
  rw [g12] at k12
  obtain ⟨-, rfl⟩ := Prod.mk.inj (Option.some.inj k12)
  have hPk : P.key ≠ k := by
    rintro rfl
    rcases (hv P.key).pda hpda with ⟨_, e⟩ | e | e
    · have := poolLen_gt; omega
    · exact env.program_ne_token (vP.symm.trans e)
    · exact env.program_ne_system (vP.symm.trans e)
  obtain ⟨n1, hV, hVe⟩ := near_create h c1 c2
  rw [createAccount_ok] at c1
  obtain ⟨-, -, -, -, -, rfl⟩ := c1
  rw [initializeTokenAccount_ok] at i1 i2
  obtain ⟨-, -, rfl⟩ := i1
  obtain ⟨-, -, rfl⟩ := i2
  rw [hVe]
  refine (n1.set hV (Or.inl rfl)).putPool hPk ?_ _
  rw [world_set_ne _ _ (Ne.symm g13.2), world_set_ne _ _ (Ne.symm g13.2), world_set_ne _ _ (Ne.symm g13.1)]
  exact vP

theorem near_initMining (h : Near env now k v w) {accs : List AccountInfo} {o : Key}
    {v' w' : World} (h1 : processInitializeMining env v accs o = .ok v')
    (h2 : processInitializeMining env w accs o = .ok w') : Near env now k v' w' := by
  obtain ⟨P, M, Y, S, rest, bump, va, rfl, vP, -, -, -, g1, c1, rfl⟩ := processInitializeMining_ok h1
  obtain ⟨P', M', Y', S', rest', bump', wa, e2, wP, -, -, -, g2, c2, rfl⟩ := processInitializeMining_ok h2
  simp only [List.cons.injEq] at e2
  obtain ⟨rfl, rfl, rfl, rfl, rfl⟩ := e2
  rw [g1] at g2
  obtain ⟨-, rfl⟩ := Prod.mk.inj (Option.some.inj g2)
  obtain ⟨n1, hM, hMe⟩ := near_create h c1 c2
  unfold putMining
  rw [hMe]
  exact n1.set hM (Or.inl rfl)

/-- Every instruction that succeeds in both worlds, other than penalizing and closing the mining at `k`. -/
theorem near_exec (h : Near env now k v w) (hv : Wf env now v) (hw : Wf env now w) (hpda : env.IsPda k)
    {accs : List AccountInfo} (hs : RealSigners accs) {i : Ix} (cv : NotPoolAsMining env v accs i)
    (cw : NotPoolAsMining env w accs i)
    (hk : miningArg accs i = some k → i ≠ .closeMining ∧ ∀ o n, i ≠ .decreaseRewards o n)
    {v' w' : World} {r r' : Option Nat} (h1 : exec env now v accs i = .ok (v', r)) (h2 : exec env now w accs i = .ok (w', r')) :
    Near env now k v' w' ∧ ∀ j, j ≠ k → claimedOut accs j i r = claimedOut accs j i r' := by
  rw [exec_ok] at h1 h2
  obtain ⟨h1, -⟩ := h1
  obtain ⟨h2, -⟩ := h2
  cases i with
  | claim =>
    simp only [process, res_bind_ok, res_pure_ok, Prod.mk.injEq, Prod.exists] at h1 h2
    obtain ⟨v1, n, h1, rfl, rfl⟩ := h1
    obtain ⟨w1, n', h2, rfl, rfl⟩ := h2
    by_cases hm : miningArg accs .claim = some k
    · refine ⟨(near_claim_one (near_claim_one h hv hs cv hm h1).symm hw hs cw hm h2).symm, fun j hj => ?_⟩
      have : miningArg accs .claim ≠ some j := by rw [hm]; intro hh; exact hj (Option.some.inj hh).symm
      simp only [claimedOut, if_neg this]
    · obtain ⟨g1, rfl⟩ := near_claim h hv hs hm h1 h2
      exact ⟨g1, fun _ _ => rfl⟩
  | depositMining a l o dl =>
    simp only [process, res_bind_ok, res_pure_ok, Prod.mk.injEq] at h1 h2
    obtain ⟨v1, h1, rfl, rfl⟩ := h1
    obtain ⟨w1, h2, rfl, rfl⟩ := h2
    obtain ⟨P, M, A, D, p, m, d, p', m', d', c1, o1, rfl⟩ := processDepositMining_ok h1
    obtain ⟨P', M', A', D', q, n, e, q', n', e', c2, o2, rfl⟩ := processDepositMining_ok h2
    exact ⟨near_call (i := .depositMining a l o dl) h hv hw hs c1 c2 o1 o2, fun _ _ => rfl⟩
  | withdrawMining a o dl =>
    simp only [process, res_bind_ok, res_pure_ok, Prod.mk.injEq] at h1 h2
    obtain ⟨v1, h1, rfl, rfl⟩ := h1
    obtain ⟨w1, h2, rfl, rfl⟩ := h2
    obtain ⟨P, M, A, D, p, m, d, p', m', d', c1, o1, rfl⟩ := processWithdrawMining_ok h1
    obtain ⟨P', M', A', D', q, n, e, q', n', e', c2, o2, rfl⟩ := processWithdrawMining_ok h2
    exact ⟨near_call (i := .withdrawMining a o dl) h hv hw hs c1 c2 o1 o2, fun _ _ => rfl⟩
  | extendStake ol nl ts b a o dl =>
    simp only [process, res_bind_ok, res_pure_ok, Prod.mk.injEq] at h1 h2
    obtain ⟨v1, h1, rfl, rfl⟩ := h1
    obtain ⟨w1, h2, rfl, rfl⟩ := h2
    obtain ⟨P, M, A, D, p, m, d, p', m', d', c1, o1, rfl⟩ := processExtendStake_ok h1
    obtain ⟨P', M', A', D', q, n, e, q', n', e', c2, o2, rfl⟩ := processExtendStake_ok h2
    exact ⟨near_call (i := .extendStake ol nl ts b a o dl) h hv hw hs c1 c2 o1 o2, fun _ _ => rfl⟩
  | initializePool f d =>
    simp only [process, res_bind_ok, res_pure_ok, Prod.mk.injEq] at h1 h2
    obtain ⟨v1, h1, rfl, rfl⟩ := h1
    obtain ⟨w1, h2, rfl, rfl⟩ := h2
    exact ⟨near_initPool h hv hpda h1 h2, fun _ _ => rfl⟩
  | fillVault r e =>
    simp only [process, res_bind_ok, res_pure_ok, Prod.mk.injEq] at h1 h2
    obtain ⟨v1, h1, rfl, rfl⟩ := h1
    obtain ⟨w1, h2, rfl, rfl⟩ := h2
    exact ⟨near_fill h hv hs h1 h2, fun _ _ => rfl⟩
  | initializeMining o =>
    simp only [process, res_bind_ok, res_pure_ok, Prod.mk.injEq] at h1 h2
    obtain ⟨v1, h1, rfl, rfl⟩ := h1
    obtain ⟨w1, h2, rfl, rfl⟩ := h2
    exact ⟨near_initMining h h1 h2, fun _ _ => rfl⟩
  | distributeRewards =>
    simp only [process, res_bind_ok, res_pure_ok, Prod.mk.injEq] at h1 h2
    obtain ⟨v1, h1, rfl, rfl⟩ := h1
    obtain ⟨w1, h2, rfl, rfl⟩ := h2
    exact ⟨near_distribute h hv hs h1 h2, fun _ _ => rfl⟩
  | closeMining =>
    simp only [process, res_bind_ok, res_pure_ok, Prod.mk.injEq] at h1 h2
    obtain ⟨v1, h1, rfl, rfl⟩ := h1
    obtain ⟨w1, h2, rfl, rfl⟩ := h2
    exact ⟨near_close h (fun hh => (hk hh).1 rfl) h1 h2, fun _ _ => rfl⟩
  | changeDelegate a nd =>
    simp only [process, res_bind_ok, res_pure_ok, Prod.mk.injEq] at h1 h2
    obtain ⟨v1, h1, rfl, rfl⟩ := h1
    obtain ⟨w1, h2, rfl, rfl⟩ := h2
    exact ⟨near_redelegate h hv hw hs cv cw h1 h2, fun _ _ => rfl⟩
  | slash o n mu ex =>
    simp only [process, res_bind_ok, res_pure_ok, Prod.mk.injEq] at h1 h2
    obtain ⟨v1, h1, rfl, rfl⟩ := h1
    obtain ⟨w1, h2, rfl, rfl⟩ := h2
    exact ⟨near_slash h hv hw hs h1 h2, fun _ _ => rfl⟩
  | decreaseRewards o n =>
    simp only [process, res_bind_ok, res_pure_ok, Prod.mk.injEq] at h1 h2
    obtain ⟨v1, h1, rfl, rfl⟩ := h1
    obtain ⟨w1, h2, rfl, rfl⟩ := h2
    exact ⟨near_decrease h (fun hh => (hk hh).2 _ _ rfl) h1 h2, fun _ _ => rfl⟩

end

theorem near_pool {now : Nat} {k : Key} {v w : World} (h : Near env now k v w) {P : Key} {p : Pool} (hp : PoolAt env v P p) :
    PoolAt env w P p := (poolAt_congr (h.eq_program (h.ne_pool hp.2) hp.1)).mp hp

/-- An event that happens in both histories. -/
theorem near_event {k : Key} {s t : Chain} {e e' : Event} (hnow : s.now = t.now) (hn : Near env s.now k s.world t.world)
    (hws : Wf env s.now s.world) (hwt : Wf env t.now t.world) (hpda : env.IsPda k)
    (he : SameButTokens env k e e') (ha : goesThrough env s e = goesThrough env t e') (hv : e.Valid env s)
    (hv' : e'.Valid env t) (hc : Unharmed env k s e) (hc' : Unharmed env k t e') :
    (s.apply env e).now = (t.apply env e').now ∧
      Near env (s.apply env e).now k (s.apply env e).world (t.apply env e').world ∧
      (∀ j, j ≠ k → claimedBy env j s e = claimedBy env j t e') ∧
      ∀ P p, PoolAt env s.world P p → earnedBy env P k s e = earnedBy env P k t e' := by
  obtain ⟨m, n, m1, m2, m3⟩ := hn.mining
  rcases he with rfl | ⟨w, w', rfl, rfl, hx, hl⟩
  · cases e with
    | ix accs i =>
      have hear : ∀ P p, PoolAt env s.world P p → earnedBy env P k s (.ix accs i) = earnedBy env P k t (.ix accs i) := by
        intro P p hp
        have hp' := near_pool hn hp
        simp only [earnedBy, m1.2, m2.2, incomeBy, hp.2, hp'.2]
        have ha' : succeeded env s accs i = succeeded env t accs i := ha
        rw [ha', incomeFrom, incomeFrom, m3.earning (Nat.le_refl _), ← hnow]
      cases hs1 : exec env s.now s.world accs i with
      | error er =>
        have h2 : ∃ er', exec env t.now t.world accs i = .error er' := by
          have ha' : succeeded env s accs i = succeeded env t accs i := ha
          cases hx : exec env t.now t.world accs i with
          | error er' => exact ⟨er', rfl⟩
          | ok r => simp [succeeded, hs1, hx] at ha'
        obtain ⟨er', h2⟩ := h2
        rw [apply_ix_error hs1, apply_ix_error h2]
        refine ⟨hnow, hn, fun j _ => ?_, hear⟩
        simp only [claimedBy, hs1, h2]
      | ok r =>
        obtain ⟨v1, r⟩ := r
        have h2 : ∃ r', exec env t.now t.world accs i = .ok r' := by
          have ha' : succeeded env s accs i = succeeded env t accs i := ha
          cases hx : exec env t.now t.world accs i with
          | error er' => simp [succeeded, hs1, hx] at ha'
          | ok r => exact ⟨r, rfl⟩
        obtain ⟨⟨w1, r'⟩, h2⟩ := h2
        rw [apply_ix_ok hs1, apply_ix_ok h2]
        have hsucc : succeeded env s accs i = true := by simp [succeeded, hs1]
        have h2' := h2
        rw [← hnow] at h2' hwt
        obtain ⟨g1, g2⟩ := near_exec hn hws hwt hpda hv hc.1 hc'.1 (hc.2 hsucc) hs1 h2'
        refine ⟨hnow, g1, fun j hj => ?_, hear⟩
        simp only [claimedBy, hs1, h2]
        exact g2 j hj
    | tick d =>
      refine ⟨by show s.now + d = t.now + d; rw [hnow], hn.later (Nat.le_add_right _ _), fun _ _ => rfl, fun P p _ => ?_⟩
      simp only [earnedBy, m1.2, m2.2, incomeBy]
    | gc j =>
      have hj : j ≠ k := by rintro rfl; exact absurd (show (s.world j).lamports = 0 from hv) (by have := hn.alive; omega)
      refine ⟨hnow, hn.set hj (Or.inl rfl), fun _ _ => rfl, fun P p _ => ?_⟩
      simp only [earnedBy, m1.2, m2.2, incomeBy]
    | ext w =>
      refine ⟨hnow, ?_, fun _ _ => rfl, fun P p _ => ?_⟩
      · obtain ⟨a1, a2, a3, a4⟩ := hv.program_owned k m1.1
        obtain ⟨b1, b2, b3, b4⟩ := hv'.program_owned k m2.1
        exact ⟨fun j _ => Or.inl rfl, ⟨m, n, ⟨a1.trans m1.1, a3.trans m1.2⟩, ⟨b1.trans m2.1, b3.trans m2.2⟩, m3⟩, rfl, rfl,
          Nat.lt_of_lt_of_le hn.alive a4⟩
      · simp only [earnedBy, m1.2, m2.2, incomeBy]
  · refine ⟨hnow, ?_, fun _ _ => rfl, fun P p _ => ?_⟩
    · obtain ⟨a1, a2, a3, a4⟩ := hv.program_owned k m1.1
      obtain ⟨b1, b2, b3, b4⟩ := hv'.program_owned k m2.1
      exact ⟨hx, ⟨m, n, ⟨a1.trans m1.1, a3.trans m1.2⟩, ⟨b1.trans m2.1, b3.trans m2.2⟩, m3⟩, hl,
        by show (w k).len = (w' k).len; rw [a2, b2]; exact hn.len, Nat.lt_of_lt_of_le hn.alive a4⟩
    · simp only [earnedBy, m1.2, m2.2, incomeBy]

/-- A claim that happens in one of them. -/
theorem near_claimEvent {k : Key} {s : Chain} {w : World} {e : Event} (hn : Near env s.now k s.world w)
    (hws : Wf env s.now s.world) (hclaim : ClaimOf k e) (hv : e.Valid env s) (hc : CleanEvent env s e) :
    (s.apply env e).now = s.now ∧ Near env s.now k (s.apply env e).world w ∧
      (∀ j, j ≠ k → claimedBy env j s e = 0) ∧ ∀ P, earnedBy env P k s e = 0 := by
  obtain ⟨m, n, m1, m2, m3⟩ := hn.mining
  cases e with
  | ix accs i =>
    cases i with
    | claim =>
      have hk : miningArg accs .claim = some k := hclaim
      have hear : ∀ P, earnedBy env P k s (.ix accs .claim) = 0 := by
        intro P
        simp only [earnedBy, m1.2, incomeBy, incomeFrom, distributedFrom]
        split <;> simp
      cases h1 : exec env s.now s.world accs .claim with
      | error er =>
        rw [apply_ix_error h1]
        exact ⟨rfl, hn, fun j _ => by simp only [claimedBy, h1], hear⟩
      | ok r =>
        obtain ⟨v1, r⟩ := r
        rw [apply_ix_ok h1]
        refine ⟨rfl, ?_, fun j hj => ?_, hear⟩
        · rw [exec_ok] at h1
          obtain ⟨h1, -⟩ := h1
          simp only [process, res_bind_ok, res_pure_ok, Prod.mk.injEq, Prod.exists] at h1
          obtain ⟨v2, n, h1, rfl, rfl⟩ := h1
          exact near_claim_one hn hws hv hc hk h1
        · simp only [claimedBy, h1]
          cases r with
          | none => rfl
          | some n =>
            have : miningArg accs .claim ≠ some j := by rw [hk]; intro hh; exact hj (Option.some.inj hh).symm
            simp only [claimedOut, if_neg this]
    | _ => exact hclaim.elim
  | _ => exact hclaim.elim

theorem careful_unharmed {P k : Key} {s : Chain} {e : Event} (h : CarefulEvent env P k s e) : Unharmed env k s e := by
  refine ⟨h.1, ?_⟩
  cases e with
  | ix accs i => exact fun hs hk => ⟨((h.2 hs).own hk).1, ((h.2 hs).own hk).2.1⟩
  | _ => trivial

/-- Two histories that differ only in claims from the mining at `k`. -/
theorem near_runs {k : Key} (hpda : env.IsPda k) {s t s' t' : Chain} {es es' : List Event}
    (h : UpToClaims env k s t es es') : RunsWith env (Unharmed env k) s es s' →
    RunsWith env (Unharmed env k) t es' t' → Wf env s.now s.world → Wf env t.now t.world → s.now = t.now →
    Near env s.now k s.world t.world →
    s'.now = t'.now ∧ Near env s'.now k s'.world t'.world ∧
      (∀ j, j ≠ k → totalIn env (claimedBy env j) s es = totalIn env (claimedBy env j) t es') ∧
      ∀ P p, PoolAt env s.world P p → 0 < (s.world P).lamports →
        totalIn env (earnedBy env P k) s es = totalIn env (earnedBy env P k) t es' := by
  induction h with
  | done =>
    intro r1 r2 _ _ hnow hn
    cases r1; cases r2
    exact ⟨hnow, hn, fun _ _ => rfl, fun _ _ _ _ => rfl⟩
  | @both s t e e' es es' same alike rest ih =>
    intro r1 r2 hws hwt hnow hn
    cases r1 with
    | cons v1 c1 r1 =>
    cases r2 with
    | cons v2 c2 r2 =>
      obtain ⟨g1, g2, g3, g4⟩ := near_event hnow hn hws hwt hpda same alike v1 v2 c1 c2
      obtain ⟨k1, k2, k3, k4⟩ := ih r1 r2 (wf_apply hws v1 c1.1) (wf_apply hwt v2 c2.1) g1 g2
      refine ⟨k1, k2, fun j hj => ?_, fun P p hp hpl => ?_⟩
      · simp only [totalIn, g3 j hj, k3 j hj]
      · obtain ⟨p1, h1, h2, -⟩ := apply_pool hws v1 c1.1 hp hpl
        simp only [totalIn, g4 P p hp, k4 P p1 h1 h2]
  | @first s t e es es' claim rest ih =>
    intro r1 r2 hws hwt hnow hn
    cases r1 with
    | cons v1 c1 r1 =>
      obtain ⟨g1, g2, g3, g4⟩ := near_claimEvent hn hws claim v1 c1.1
      obtain ⟨k1, k2, k3, k4⟩ := ih r1 r2 (wf_apply hws v1 c1.1) hwt (g1.trans hnow) (by rw [g1]; exact g2)
      refine ⟨k1, k2, fun j hj => ?_, fun P p hp hpl => ?_⟩
      · simp only [totalIn, g3 j hj, k3 j hj, Nat.zero_add]
      · obtain ⟨p1, h1, h2, -⟩ := apply_pool hws v1 c1.1 hp hpl
        simp only [totalIn, g4 P, k4 P p1 h1 h2, Nat.zero_add]
  | @second s t e es es' claim rest ih =>
    intro r1 r2 hws hwt hnow hn
    cases r2 with
    | cons v2 c2 r2 =>
      obtain ⟨g1, g2, g3, g4⟩ := near_claimEvent (by rw [← hnow]; exact hn.symm) hwt claim v2 c2.1
      obtain ⟨k1, k2, k3, k4⟩ := ih r1 r2 hws (wf_apply hwt v2 c2.1) (hnow.trans g1.symm) (by rw [hnow]; exact g2.symm)
      refine ⟨k1, k2, fun j hj => ?_, fun P p hp hpl => ?_⟩
      · simp only [totalIn, g3 j hj, k3 j hj, Nat.zero_add]
      · simp only [totalIn, g4 P, k4 P p hp hpl, Nat.zero_add]

end Verif
