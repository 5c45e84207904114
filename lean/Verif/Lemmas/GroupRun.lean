import Verif.Lemmas.Group
/-!
Histories that differ in what a group of stakers does among themselves.
-/

namespace Verif

open Spec

variable {env : Env}

/-- Two worlds that differ at most in token accounts and in the minings of the group `K`, which are those of `I` in both. -/
structure Around (env : Env) (K : List Key) (I : Key → Mining) (v w : World) : Prop where
  others : ∀ j, j ∉ K → SameOrTokens env (v j) (w j)
  first : ∀ j, j ∈ K → ∃ m, MiningAt env v j m ∧ SameMining (I j) m
  second : ∀ j, j ∈ K → ∃ m, MiningAt env w j m ∧ SameMining (I j) m
  lamports : ∀ j, j ∈ K → (v j).lamports = (w j).lamports
  len : ∀ j, j ∈ K → (v j).len = (w j).len
  alive : ∀ j, j ∈ K → 0 < (v j).lamports

namespace Around

variable {K : List Key} {I : Key → Mining} {v w : World}

theorem symm (h : Around env K I v w) : Around env K I w v :=
  ⟨fun j hj => SameOrTokens.symm (h.others j hj), h.second, h.first, fun j hj => (h.lamports j hj).symm,
    fun j hj => (h.len j hj).symm, fun j hj => by rw [← h.lamports j hj]; exact h.alive j hj⟩

theorem eq_of_owner (h : Around env K I v w) {j : Key} (hj : j ∉ K) (ho : (v j).owner ≠ env.tokenProgram) : v j = w j :=
  (h.others j hj).elim id fun hh => absurd hh.1 ho

theorem eq_program (h : Around env K I v w) {j : Key} (hj : j ∉ K) (ho : (v j).owner = env.programId) : v j = w j :=
  h.eq_of_owner hj fun hh => env.program_ne_token (ho.symm.trans hh)

theorem ne_pool (h : Around env K I v w) {j : Key} {p : Pool} (hp : (v j).content = .pool p) : j ∉ K := by
  intro hj
  obtain ⟨m, h1, -⟩ := h.first j hj
  rw [h1.2] at hp; cases hp

theorem ne_system (h : Around env K I v w) {j : Key} (ho : (v j).owner = env.systemProgram) : j ∉ K := by
  intro hj
  obtain ⟨m, h1, -⟩ := h.first j hj
  exact env.program_ne_system (h1.1.symm.trans ho)

theorem ne_token (h : Around env K I v w) {j : Key} (ho : (v j).owner = env.tokenProgram) : j ∉ K := by
  intro hj
  obtain ⟨m, h1, -⟩ := h.first j hj
  exact env.program_ne_token (h1.1.symm.trans ho)

/-- The same change to both. -/
theorem set (h : Around env K I v w) {j : Key} (hj : j ∉ K) {a b : Account} (hab : SameOrTokens env a b) :
    Around env K I (v.set j a) (w.set j b) := by
  have hk : ∀ k, k ∈ K → k ≠ j := fun k hk e => hj (e ▸ hk)
  refine ⟨fun i hi => ?_, fun i hi => ?_, fun i hi => ?_, fun i hi => ?_, fun i hi => ?_, fun i hi => ?_⟩
  · by_cases e : i = j
    · subst e; rw [world_set_same, world_set_same]; exact hab
    · rw [world_set_ne _ _ e, world_set_ne _ _ e]; exact h.others i hi
  · obtain ⟨m, h1, h2⟩ := h.first i hi
    exact ⟨m, (miningAt_congr (world_set_ne _ _ (hk i hi))).mpr h1, h2⟩
  · obtain ⟨m, h1, h2⟩ := h.second i hi
    exact ⟨m, (miningAt_congr (world_set_ne _ _ (hk i hi))).mpr h1, h2⟩
  · rw [world_set_ne _ _ (hk i hi), world_set_ne _ _ (hk i hi)]; exact h.lamports i hi
  · rw [world_set_ne _ _ (hk i hi), world_set_ne _ _ (hk i hi)]; exact h.len i hi
  · rw [world_set_ne _ _ (hk i hi)]; exact h.alive i hi

theorem putPool (h : Around env K I v w) {j : Key} (hj : j ∉ K) (ho : (v j).owner = env.programId) (p : Pool) :
    Around env K I (putPool v j p) (putPool w j p) := by
  unfold Verif.putPool
  rw [h.eq_program hj ho]
  exact h.set hj (Or.inl rfl)

/-- A change to the mining of a member in one of the worlds. -/
theorem one (h : Around env K I v w) {k : Key} (hk : k ∈ K) {x : Mining} (hx : SameMining (I k) x) :
    Around env K I (Verif.putMining env v k x) w := by
  obtain ⟨m, e1, e2⟩ := h.first k hk
  unfold Verif.putMining
  rw [Near.storeMining_eq e1.2]
  refine ⟨fun i hi => ?_, fun i hi => ?_, h.second, fun i hi => ?_, fun i hi => ?_, fun i hi => ?_⟩
  · have : i ≠ k := fun e => hi (e ▸ hk)
    rw [world_set_ne _ _ this]; exact h.others i hi
  · by_cases e : i = k
    · subst e
      exact ⟨x, ⟨by rw [world_set_same]; exact e1.1, by rw [world_set_same]⟩, hx⟩
    · obtain ⟨m, h1, h2⟩ := h.first i hi
      exact ⟨m, (miningAt_congr (world_set_ne _ _ e)).mpr h1, h2⟩
  · by_cases e : i = k
    · subst e; rw [world_set_same]; exact h.lamports i hi
    · rw [world_set_ne _ _ e]; exact h.lamports i hi
  · by_cases e : i = k
    · subst e; rw [world_set_same]; exact h.len i hi
    · rw [world_set_ne _ _ e]; exact h.len i hi
  · by_cases e : i = k
    · subst e; rw [world_set_same]; exact h.alive i hi
    · rw [world_set_ne _ _ e]; exact h.alive i hi

/-- The same mining in both, or minings of two members. -/
theorem putMining (h : Around env K I v w) {j j' : Key} (ho : (v j).owner = env.programId) {m' n' : Mining}
    (hc : j = j' ∧ j ∉ K ∧ m' = n' ∨ j ∈ K ∧ j' ∈ K ∧ SameMining (I j) m' ∧ SameMining (I j') n') :
    Around env K I (putMining env v j m') (putMining env w j' n') := by
  rcases hc with ⟨rfl, hj, rfl⟩ | ⟨hj, hj', h1, h2⟩
  · unfold Verif.putMining
    rw [h.eq_program hj ho]
    exact h.set hj (Or.inl rfl)
  · exact ((h.one hj h1).symm.one hj' h2).symm

theorem putDelegate (h : Around env K I v w) {j j' : Key} (ho : (v j).owner = env.programId) {d e : Option Mining}
    (hs : d.isSome = e.isSome)
    (hc : j = j' ∧ j ∉ K ∧ d = e ∨ j ∈ K ∧ j' ∈ K ∧ (∀ x, d = some x → SameMining (I j) x) ∧
      ∀ x, e = some x → SameMining (I j') x) : Around env K I (putDelegate env v j d) (putDelegate env w j' e) := by
  cases d with
  | none =>
    cases e with
    | none => exact h
    | some _ => cases hs
  | some x =>
    cases e with
    | none => cases hs
    | some y =>
      refine h.putMining ho ?_
      rcases hc with ⟨h1, h2, h3⟩ | ⟨h1, h2, h3, h4⟩
      · exact Or.inl ⟨h1, h2, Option.some.inj h3⟩
      · exact Or.inr ⟨h1, h2, h3 x rfl, h4 y rfl⟩

/-- Token accounts may change. -/
theorem tokens (h : Around env K I v w) {v' : World}
    (ht : ∀ j, v' j = v j ∨ (v j).owner = env.tokenProgram ∧ (v' j).owner = env.tokenProgram) : Around env K I v' w := by
  have hk : ∀ j, j ∈ K → v' j = v j := fun j hj => (ht j).elim id fun hh => absurd hj (h.ne_token hh.1)
  refine ⟨fun j hj => ?_, fun j hj => ?_, h.second, fun j hj => by rw [hk j hj]; exact h.lamports j hj,
    fun j hj => by rw [hk j hj]; exact h.len j hj, fun j hj => by rw [hk j hj]; exact h.alive j hj⟩
  · rcases ht j with e | ⟨e1, e2⟩
    · rw [e]; exact h.others j hj
    · rcases h.others j hj with e | ⟨-, e3⟩
      · exact Or.inr ⟨e2, by rw [← e]; exact e1⟩
      · exact Or.inr ⟨e2, e3⟩
  · obtain ⟨m, h1, h2⟩ := h.first j hj
    exact ⟨m, (miningAt_congr (hk j hj)).mpr h1, h2⟩

/-- What is read of a member's mining. -/
theorem member (h : Around env K I v w) {j : Key} (hj : j ∈ K) {m : Mining}
    (h1 : viewMining env (v j).content = some m) : SameMining (I j) m := by
  obtain ⟨a, g1, g2⟩ := h.first j hj
  rw [g1.2] at h1
  cases h1
  exact g2

/-- What is read of another mining in the two worlds. -/
theorem read (h : Around env K I v w) {j : Key} (hj : j ∉ K) (ho : (v j).owner = env.programId) {m n : Mining}
    (h1 : viewMining env (v j).content = some m) (h2 : viewMining env (w j).content = some n) : m = n := by
  rw [← h.eq_program hj ho, h1] at h2
  exact Option.some.inj h2

theorem readPool (h : Around env K I v w) {j : Key} (hj : j ∉ K) (ho : (v j).owner = env.programId) {p q : Pool}
    (h1 : viewPool env (v j).content = some p) (h2 : viewPool env (w j).content = some q) : p = q := by
  rw [← h.eq_program hj ho, h1] at h2
  exact Option.some.inj h2

end Around

/-- The same account, or two members' minings. -/
def InTurn (K : List Key) (j j' : Key) : Prop := j = j' ∨ j ∈ K ∧ j' ∈ K

section
variable {now : Nat} {K : List Key} {I : Key → Mining} {v w : World}

/-- An instruction on the stake of one mining. -/
theorem around_stake (h : Around env K I v w) (hv : Wf env now v) (hw : Wf env now w) {P M D A M' D' A' : AccountInfo}
    {o o' : Key} {p q p1 q1 : Pool} {m n m' n' : Mining} {d e d' e' : Option Mining} {i i' : Ix} (hA : A.key ≠ 0)
    (vP : (v P.key).owner = env.programId) (wP : (w P.key).owner = env.programId)
    (vM : (v M.key).owner = env.programId) (wM : (w M'.key).owner = env.programId)
    (vD : (v D.key).owner = env.programId) (hne : M.key ≠ P.key)
    (l1 : PoolAndMining env v o M.key P.key A.key p m) (l2 : PoolAndMining env w o' M'.key P.key A'.key q n)
    (hM : InTurn K M.key M'.key) (hD : InTurn K D.key D'.key)
    (hdo : ∀ x, d = some x → MiningOk x) (heo : ∀ x, e = some x → MiningOk x) (hde : d.isSome = e.isSome)
    (hsame : D.key = D'.key → D.key ∉ K → d = e) (hd1 : D.key ∈ K → ∀ x, d = some x → SameMining (I D.key) x)
    (hd2 : D'.key ∈ K → ∀ x, e = some x → SameMining (I D'.key) x) (hi : SameTerms i i')
    (o1 : StakeOp env.caps now p m d p1 m' d' i) (o2 : StakeOp env.caps now q n e q1 n' e' i') :
    Around env K I (putDelegate env (putMining env (putPool v P.key p1) M.key m') D.key d')
      (putDelegate env (putMining env (putPool w P.key q1) M'.key n') D'.key e') := by
  obtain ⟨a1, a2⟩ := pool_slot (hv P.key) vP l1.plen l1.pview hA (Or.inl l1.auth)
  have hPk : P.key ∉ K := h.ne_pool a1
  obtain rfl := h.readPool hPk vP l1.pview l2.pview
  obtain ⟨c1, -⟩ := mining_slot hv vM vP l1
  obtain ⟨c2, -⟩ := mining_slot hw wM wP l2
  obtain ⟨rfl, r3, r5⟩ := o1.twice a2.ok c1 c2 hdo heo hde hi o2
  obtain ⟨s1, s2⟩ := o1.same a2.ok c1 hdo
  obtain ⟨t1, t2⟩ := o2.same a2.ok c2 heo
  have n1 : Around env K I (putMining env (putPool v P.key p1) M.key m') (putMining env (putPool w P.key p1) M'.key n') := by
    refine (h.putPool hPk vP p1).putMining (by rw [putPool_ne _ _ hne]; exact vM) ?_
    by_cases hk : M.key ∈ K
    · have hk' : M'.key ∈ K := hM.elim (fun e => e ▸ hk) fun hh => hh.2
      exact Or.inr ⟨hk, hk', (h.member hk l1.mview).trans s1, (h.symm.member hk' l2.mview).trans t1⟩
    · have hj : M.key = M'.key := hM.elim id fun hh => absurd hh.1 hk
      have hmn : m = n := h.read hk vM l1.mview (by rw [hj]; exact l2.mview)
      exact Or.inl ⟨hj, hk, r3 hmn⟩
  refine n1.putDelegate (by rw [putMining_owner, putPool_owner]; exact vD) (by rw [s2.some, t2.some, hde]) ?_
  have fwd : ∀ {a b : Option Mining} {j : Key}, SameDelegate a b → (∀ x, a = some x → SameMining (I j) x) →
      ∀ x, b = some x → SameMining (I j) x := by
    rintro a b j hab ha x rfl
    cases a with
    | none => exact hab.elim
    | some y => exact (ha y rfl).trans hab.1
  by_cases hk : D.key ∈ K
  · have hk' : D'.key ∈ K := hD.elim (fun e => e ▸ hk) fun hh => hh.2
    exact Or.inr ⟨hk, hk', fwd s2 (hd1 hk), fwd t2 (hd2 hk')⟩
  · have hj : D.key = D'.key := hD.elim id fun hh => absurd hh.1 hk
    exact Or.inl ⟨hj, hk, r5 (hsame hj hk)⟩

/-- The delegate that is read in the two worlds. -/
theorem around_delegate (h : Around env K I v w) (hv : Wf env now v) (hw : Wf env now w) {M D M' D' : AccountInfo}
    {dl P dl' P' : Key} {d e : Option Mining} (vD : (v D.key).owner = env.programId) (wD : (w D'.key).owner = env.programId)
    (heq : M.key = D.key ↔ M'.key = D'.key)
    (h1 : (M.key = D.key ∧ d = none) ∨ (M.key ≠ D.key ∧ ∃ x, d = some x ∧ DelegateOk env v D.key dl P x))
    (h2 : (M'.key = D'.key ∧ e = none) ∨ (M'.key ≠ D'.key ∧ ∃ x, e = some x ∧ DelegateOk env w D'.key dl' P' x)) :
    (∀ x, d = some x → MiningOk x) ∧ (∀ x, e = some x → MiningOk x) ∧ d.isSome = e.isSome ∧
      (D.key = D'.key → D.key ∉ K → d = e) ∧ (D.key ∈ K → ∀ x, d = some x → SameMining (I D.key) x) ∧
      (D'.key ∈ K → ∀ x, e = some x → SameMining (I D'.key) x) := by
  rcases h1 with ⟨a, rfl⟩ | ⟨a, x, rfl, hx⟩
  · rcases h2 with ⟨-, rfl⟩ | ⟨b, -⟩
    · exact ⟨by simp, by simp, rfl, fun _ _ => rfl, by simp, by simp⟩
    · exact absurd (heq.mp a) b
  · rcases h2 with ⟨b, -⟩ | ⟨-, y, rfl, hy⟩
    · exact absurd (heq.mpr b) a
    · refine ⟨?_, ?_, rfl, fun hj hk => ?_, fun hk => ?_, fun hk => ?_⟩
      · rintro _ ⟨⟩; exact (delegate_slot hv vD hx).1
      · rintro _ ⟨⟩; exact (delegate_slot hw wD hy).1
      · rw [h.read hk vD hx.view (by rw [hj]; exact hy.view)]
      · rintro _ ⟨⟩; exact h.member hk hx.view
      · rintro _ ⟨⟩; exact h.symm.member hk hy.view

/-- The same for the old delegate, of which less is checked. -/
theorem around_old (h : Around env K I v w) (hv : Wf env now v) (hw : Wf env now w) {M D M' D' : AccountInfo}
    {P P' : Key} {d e : Option Mining} (vD : (v D.key).owner = env.programId) (wD : (w D'.key).owner = env.programId)
    (heq : M.key = D.key ↔ M'.key = D'.key) (nv : ∀ q, (v D.key).content ≠ .pool q) (nw : ∀ q, (w D'.key).content ≠ .pool q)
    (h1 : (M.key = D.key ∧ d = none) ∨ (M.key ≠ D.key ∧ ∃ x, d = some x ∧ D.key ≠ P ∧
        MINING_LEN ≤ (v D.key).len ∧ viewMining env (v D.key).content = some x))
    (h2 : (M'.key = D'.key ∧ e = none) ∨ (M'.key ≠ D'.key ∧ ∃ x, e = some x ∧ D'.key ≠ P' ∧
        MINING_LEN ≤ (w D'.key).len ∧ viewMining env (w D'.key).content = some x)) :
    (∀ x, d = some x → MiningOk x) ∧ (∀ x, e = some x → MiningOk x) ∧ d.isSome = e.isSome ∧
      (D.key = D'.key → D.key ∉ K → d = e) ∧ (D.key ∈ K → ∀ x, d = some x → SameMining (I D.key) x) ∧
      (D'.key ∈ K → ∀ x, e = some x → SameMining (I D'.key) x) := by
  rcases h1 with ⟨a, rfl⟩ | ⟨a, x, rfl, -, -, hx⟩
  · rcases h2 with ⟨-, rfl⟩ | ⟨b, -⟩
    · exact ⟨by simp, by simp, rfl, fun _ _ => rfl, by simp, by simp⟩
    · exact absurd (heq.mp a) b
  · rcases h2 with ⟨b, -⟩ | ⟨-, y, rfl, -, -, hy⟩
    · exact absurd (heq.mpr b) a
    · refine ⟨?_, ?_, rfl, fun hj hk => ?_, fun hk => ?_, fun hk => ?_⟩
      · rintro _ ⟨⟩; exact (mining_view (hv D.key) vD hx nv).1
      · rintro _ ⟨⟩; exact (mining_view (hw D'.key) wD hy nw).1
      · rw [h.read hk vD hx (by rw [hj]; exact hy)]
      · rintro _ ⟨⟩; exact h.member hk hx
      · rintro _ ⟨⟩; exact h.symm.member hk hy

theorem around_call (h : Around env K I v w) (hv : Wf env now v) (hw : Wf env now w) {accs accs' : List AccountInfo}
    (hs : RealSigners accs) {o dl o' dl' : Key} {P M A D P' M' A' D' : AccountInfo} {p q p1 q1 : Pool} {m n m' n' : Mining}
    {d e d' e' : Option Mining} {i i' : Ix} (hi : SameTerms i i') (c1 : StakeCall env v accs o dl P M A D p m d)
    (c2 : StakeCall env w accs' o' dl' P' M' A' D' q n e) (hP : P.key = P'.key) (hM : InTurn K M.key M'.key)
    (hD : InTurn K D.key D'.key) (heq : M.key = D.key ↔ M'.key = D'.key)
    (o1 : StakeOp env.caps now p m d p1 m' d' i) (o2 : StakeOp env.caps now q n e q1 n' e' i') :
    Around env K I (putDelegate env (putMining env (putPool v P.key p1) M.key m') D.key d')
      (putDelegate env (putMining env (putPool w P'.key q1) M'.key n') D'.key e') := by
  obtain ⟨rest, e1⟩ := c1.accs_eq
  obtain ⟨d1, d2, d3, d4, d5, d6⟩ := around_delegate h hv hw c1.del_owned c2.del_owned heq c1.delegate c2.delegate
  have wP := c2.pool_owned
  have l2 := c2.loaded
  rw [← hP] at wP l2 ⊢
  exact around_stake h hv hw (hs A (by rw [e1]; simp) c1.signed) c1.pool_owned wP c1.mining_owned c2.mining_owned
    c1.del_owned c1.ne c1.loaded l2 hM hD d1 d2 d3 d4 d5 d6 hi o1 o2

theorem around_slash (h : Around env K I v w) (hv : Wf env now v) (hw : Wf env now w) {accs accs' : List AccountInfo}
    (hs : RealSigners accs) {o o' : Key} {n mu : Nat} {ex : Option Nat} {v' w' : World}
    (hP : poolArg accs (.slash o n mu ex) = poolArg accs' (.slash o' n mu ex))
    (hM : ∀ j j', miningArg accs (.slash o n mu ex) = some j → miningArg accs' (.slash o' n mu ex) = some j' → InTurn K j j')
    (h1 : processSlash env now v accs o n mu ex = .ok v') (h2 : processSlash env now w accs' o' n mu ex = .ok w') :
    Around env K I v' w' := by
  obtain ⟨A, P, M, rest, p, m, p', m', rfl, hsig, vP, vM, hne, l1, o1, rfl⟩ := processSlash_ok h1
  obtain ⟨A', P', M', rest', q, n1, q', n', rfl, -, wP, wM, -, l2, o2, rfl⟩ := processSlash_ok h2
  have hP : P.key = P'.key := Option.some.inj hP
  rw [← hP] at wP l2 ⊢
  have hMM := hM _ _ rfl rfl
  exact around_stake (D := M) (D' := M') (d := none) (e := none) (d' := none) (e' := none) (i := .slash o n mu ex)
    (i' := .slash o' n mu ex) h hv hw (hs A (by simp) hsig) vP wP vM wM vM hne l1 l2 hMM hMM (by simp) (by simp) rfl
    (fun _ _ => rfl) (by simp) (by simp) ⟨rfl, rfl, rfl⟩ ⟨o1, rfl, rfl⟩ ⟨o2, rfl, rfl⟩

theorem keep_same {a b : Option Mining} {j : Key} (hab : SameDelegate a b)
    (ha : j ∈ K → ∀ x, a = some x → SameMining (I j) x) : j ∈ K → ∀ x, b = some x → SameMining (I j) x := by
  rintro hj x rfl
  cases a with
  | none => exact hab.elim
  | some y => exact (ha hj y rfl).trans hab.1

theorem turn_cases {j j' : Key} (hj : InTurn K j j') : j ∈ K ∧ j' ∈ K ∨ j = j' ∧ j ∉ K := by
  by_cases hk : j ∈ K
  · exact Or.inl ⟨hk, hj.elim (fun e => e ▸ hk) fun hh => hh.2⟩
  · exact Or.inr ⟨hj.elim id fun hh => absurd hh.1 hk, hk⟩

theorem around_redelegate (h : Around env K I v w) (hv : Wf env now v) (hw : Wf env now w) {accs accs' : List AccountInfo}
    (hs : RealSigners accs) {a : Nat} {nd nd' : Key} (cv : NotPoolAsMining env v accs (.changeDelegate a nd))
    (cw : NotPoolAsMining env w accs' (.changeDelegate a nd')) {v' w' : World}
    (hP : poolArg accs (.changeDelegate a nd) = poolArg accs' (.changeDelegate a nd'))
    (hM : ∀ j j', miningArg accs (.changeDelegate a nd) = some j → miningArg accs' (.changeDelegate a nd') = some j' →
      InTurn K j j')
    (hD : ∀ j j', delegateArg accs (.changeDelegate a nd) = some j → delegateArg accs' (.changeDelegate a nd') = some j' →
      InTurn K j j')
    (hO : ∀ j j', oldDelegateArg accs (.changeDelegate a nd) = some j →
      oldDelegateArg accs' (.changeDelegate a nd') = some j' → InTurn K j j')
    (e1 : miningArg accs (.changeDelegate a nd) = delegateArg accs (.changeDelegate a nd) ↔
      miningArg accs' (.changeDelegate a nd') = delegateArg accs' (.changeDelegate a nd'))
    (e2 : miningArg accs (.changeDelegate a nd) = oldDelegateArg accs (.changeDelegate a nd) ↔
      miningArg accs' (.changeDelegate a nd') = oldDelegateArg accs' (.changeDelegate a nd'))
    (h1 : processChangeDelegate env now v accs a nd = .ok v') (h2 : processChangeDelegate env now w accs' a nd' = .ok w') :
    Around env K I v' w' := by
  obtain ⟨P, M, A, O, Old, New, rest, p, m, nD, oD, p', m', nD', oD', rfl, vP, vM, hA, hO', vO, vN, hne, hmp, l1,
      hn, ho, hd, rfl⟩ := processChangeDelegate_ok h1
  obtain ⟨P', M', A', O', Old', New', rest', q, n, nE, oE, q', n', nE', oE', rfl, wP, wM, -, -, wO, wN, -, -, l2,
      hn2, ho2, hd2, rfl⟩ := processChangeDelegate_ok h2
  have hP : P.key = P'.key := Option.some.inj hP
  rw [← hP] at wP l2 ⊢
  have hMM := turn_cases (hM _ _ rfl rfl)
  have hDD := turn_cases (hD _ _ rfl rfl)
  have hOO := turn_cases (hO _ _ rfl rfl)
  have e1 : M.key = New.key ↔ M'.key = New'.key :=
    ⟨fun e => Option.some.inj (e1.mp (congrArg some e)), fun e => Option.some.inj (e1.mpr (congrArg some e))⟩
  have e2 : M.key = Old.key ↔ M'.key = Old'.key :=
    ⟨fun e => Option.some.inj (e2.mp (congrArg some e)), fun e => Option.some.inj (e2.mpr (congrArg some e))⟩
  have hA0 := hs A (by simp) hA
  obtain ⟨a1, a2⟩ := pool_slot (hv P.key) vP l1.plen l1.pview hA0 (Or.inl l1.auth)
  have hPk : P.key ∉ K := h.ne_pool a1
  obtain rfl := h.readPool hPk vP l1.pview l2.pview
  obtain ⟨c1, -⟩ := mining_slot hv vM vP l1
  obtain ⟨c2, -⟩ := mining_slot hw wM wP l2
  obtain ⟨n1, n2, n3, n4, n5, n6⟩ := around_delegate h hv hw vN wN e1 hn hn2
  obtain ⟨o1, o2, o3, o4, o5, o6⟩ := around_old h hv hw vO wO e2 (fun q hq => cv Old (by simp) q ⟨vO, hq⟩)
    (fun q hq => cw Old' (by simp) q ⟨wO, hq⟩) ho ho2
  obtain ⟨-, s1, -, -, s2, s3⟩ := changeDelegate_same a2.ok c1 n1 o1 hd
  obtain ⟨-, t1, -, -, t2, t3⟩ := changeDelegate_same a2.ok c2 n2 o2 hd2
  rw [changeDelegate_ok] at hd hd2
  obtain ⟨r1, p1, x1, y1⟩ := hd
  obtain ⟨r2, q1, x2, y2⟩ := hd2
  obtain rfl := sub_some o3 x1 x2
  obtain rfl := add_some n3 y1 y2
  have q1 : Around env K I (putMining env (putPool v P.key p') M.key m') (putMining env (putPool w P.key p') M'.key n') := by
    refine (h.putPool hPk vP p').putMining (by rw [putPool_owner]; exact vM) ?_
    rcases hMM with ⟨hk, hk'⟩ | ⟨hj, hk⟩
    · exact Or.inr ⟨hk, hk', (h.member hk l1.mview).trans s1, (h.symm.member hk' l2.mview).trans t1⟩
    · obtain rfl : m = n := h.read hk vM l1.mview (by rw [hj]; exact l2.mview)
      rw [r1] at r2
      exact Or.inl ⟨hj, hk, Except.ok.inj r2⟩
  have q2 : Around env K I (putDelegate env (putMining env (putPool v P.key p') M.key m') Old.key oD')
      (putDelegate env (putMining env (putPool w P.key p') M'.key n') Old'.key oE') := by
    refine q1.putDelegate (by rw [putMining_owner, putPool_owner]; exact vO) (by rw [s3.some, t3.some, o3]) ?_
    rcases hOO with ⟨hk, hk'⟩ | ⟨hj, hk⟩
    · exact Or.inr ⟨hk, hk', keep_same s3 o5 hk, keep_same t3 o6 hk'⟩
    · obtain rfl := o4 hj hk
      rw [x1] at x2
      exact Or.inl ⟨hj, hk, (Prod.mk.inj (Except.ok.inj x2)).2⟩
  refine q2.putDelegate (by rw [putDelegate_owner, putMining_owner, putPool_owner]; exact vN) (by rw [s2.some, t2.some, n3]) ?_
  rcases hDD with ⟨hk, hk'⟩ | ⟨hj, hk⟩
  · exact Or.inr ⟨hk, hk', keep_same s2 n5 hk, keep_same t2 n6 hk'⟩
  · obtain rfl := n4 hj hk
    rw [y1] at y2
    exact Or.inl ⟨hj, hk, (Prod.mk.inj (Except.ok.inj y2)).2⟩

/-- A change of delegate among members in one of the worlds. -/
theorem around_redelegate_one (h : Around env K I v w) (hv : Wf env now v) {accs : List AccountInfo}
    (hs : RealSigners accs) {a : Nat} {nd : Key} (cv : NotPoolAsMining env v accs (.changeDelegate a nd)) {v' : World}
    (ha : AmongThem K (.ix accs (.changeDelegate a nd)))
    (h1 : processChangeDelegate env now v accs a nd = .ok v') : Around env K I v' w := by
  obtain ⟨P, M, A, O, Old, New, rest, p, m, nD, oD, p', m', nD', oD', rfl, vP, vM, hA, hO', vO, vN, hne, hmp, l1,
      hn, ho, hd, rfl⟩ := processChangeDelegate_ok h1
  obtain ⟨hin, e2, e1⟩ := ha
  have hMk : M.key ∈ K := hin _ (Or.inl rfl)
  have hNk : New.key ∈ K := hin _ (Or.inr (Or.inl rfl))
  have hOk : Old.key ∈ K := hin _ (Or.inr (Or.inr rfl))
  have e1 : M.key ≠ New.key := fun e => e1 (congrArg some e)
  have e2 : M.key ≠ Old.key := fun e => e2 (congrArg some e)
  have hA0 := hs A (by simp) hA
  obtain ⟨a1, a2⟩ := pool_slot (hv P.key) vP l1.plen l1.pview hA0 (Or.inl l1.auth)
  have hPk : P.key ∉ K := h.ne_pool a1
  obtain ⟨c1, -⟩ := mining_slot hv vM vP l1
  rcases hn with ⟨hn, -⟩ | ⟨-, x, rfl, hx⟩
  · exact absurd hn e1
  rcases ho with ⟨ho, -⟩ | ⟨-, y, rfl, -, -, hy⟩
  · exact absurd ho e2
  have n1 : ∀ z, some x = some z → MiningOk z := by rintro _ ⟨⟩; exact (delegate_slot hv vN hx).1
  have o1 : ∀ z, some y = some z → MiningOk z := by
    rintro _ ⟨⟩; exact (mining_view (hv Old.key) vO hy fun q hq => cv Old (by simp) q ⟨vO, hq⟩).1
  obtain ⟨-, s1, -, -, s2, s3⟩ := changeDelegate_same a2.ok c1 n1 o1 hd
  rw [changeDelegate_ok] at hd
  obtain ⟨r1, p1, x1, y1⟩ := hd
  obtain rfl := sub_add x1 y1
  have hput : putPool v P.key p' = v := by
    funext j
    by_cases hj : j = P.key
    · subst hj
      unfold putPool storePool
      rw [world_set_same, ← a1]
    · exact putPool_ne _ _ hj
  rw [hput]
  cases nD' with
  | none => exact s2.elim
  | some x' =>
    cases oD' with
    | none => exact s3.elim
    | some y' =>
      exact ((h.one hMk ((h.member hMk l1.mview).trans s1)).one hOk ((h.member hOk hy).trans s3.1)).one hNk
        ((h.member hNk hx.view).trans s2.1)

theorem decrease_keeps {m m' : Mining} {n : Nat} (h : m.decreaseRewards n = .ok m') : SameMining m m' := by
  rw [decreaseRewards_ok] at h
  rcases h with ⟨-, rfl⟩ | ⟨-, -, rfl⟩ <;> exact ⟨rfl, rfl, rfl, rfl, rfl⟩

/-- A penalty on a member in one of the worlds. -/
theorem around_decrease_one (h : Around env K I v w) {accs : List AccountInfo} {o : Key} {n : Nat} {v' : World} {k : Key}
    (hkK : k ∈ K) (hk : miningArg accs (.decreaseRewards o n) = some k) (h1 : processDecreaseRewards env v accs o n = .ok v') :
    Around env K I v' w := by
  obtain ⟨A, P, M, rest, p, m, m', rfl, hsig, vP, vM, hne, l1, o1, rfl⟩ := processDecreaseRewards_ok h1
  obtain rfl : M.key = k := Option.some.inj hk
  exact h.one hkK ((h.member hkK l1.mview).trans (decrease_keeps o1))

theorem around_decrease (h : Around env K I v w) {accs : List AccountInfo} {o : Key} {n : Nat} {v' w' : World}
    (h1 : processDecreaseRewards env v accs o n = .ok v') (h2 : processDecreaseRewards env w accs o n = .ok w') :
    Around env K I v' w' := by
  obtain ⟨A, P, M, rest, p, m, m', rfl, hsig, vP, vM, hne, l1, o1, rfl⟩ := processDecreaseRewards_ok h1
  obtain ⟨A', P', M', rest', q, n1, n', e2, -, wP, wM, -, l2, o2, rfl⟩ := processDecreaseRewards_ok h2
  simp only [List.cons.injEq] at e2
  obtain ⟨rfl, rfl, rfl, rfl⟩ := e2
  refine h.putMining vM ?_
  by_cases hk : M.key ∈ K
  · exact Or.inr ⟨hk, hk, (h.member hk l1.mview).trans (decrease_keeps o1), (h.symm.member hk l2.mview).trans (decrease_keeps o2)⟩
  · obtain rfl := h.read hk vM l1.mview l2.mview
    rw [o1] at o2
    exact Or.inl ⟨rfl, hk, Except.ok.inj o2⟩

/-- A claim of a member in one of the worlds. -/
theorem around_claim_one (h : Around env K I v w) (hv : Wf env now v) {accs : List AccountInfo} (hs : RealSigners accs)
    (cv : NotPoolAsMining env v accs .claim) {k : Key} (hkK : k ∈ K) (hk : miningArg accs .claim = some k) {v' : World} {n : Nat}
    (h1 : processClaim env now v accs = .ok (v', n)) : Around env K I v' w := by
  obtain ⟨P, T, V, M, O, A, U, Q, rest, ut, p, m, m1, rfl, vP, -, -, vM, hO, hA, -, -, -, -, g1, g2, g3, hne, g4, g5, g6, g7, -,
    r1, -, hw'⟩ := processClaim_ok h1
  obtain rfl : M.key = k := Option.some.inj hk
  obtain ⟨a1, a2⟩ := pool_slot (hv P.key) vP g1 g2 (hs A (by simp) hA) (Or.inl g3)
  obtain ⟨c1, -⟩ := mining_view (hv M.key) vM g5 fun q hq => cv M (by simp) q ⟨vM, hq⟩
  have hr : SameMining m m1.claim := by
    obtain ⟨s, -⟩ := refresh_same a2.ok.history c1 r1
    exact s.trans ⟨rfl, rfl, rfl, rfl, rfl⟩
  have hn : Around env K I (putMining env v M.key m1.claim) w := h.one hkK ((h.member hkK g5).trans hr)
  rcases hw' with ⟨-, ht⟩ | ⟨-, rfl⟩
  · exact hn.tokens fun j => spl_tokens ht j
  · exact hn

/-- A claim of somebody else. -/
theorem around_claim (h : Around env K I v w) (hv : Wf env now v) {accs : List AccountInfo} (hs : RealSigners accs)
    (hk : ∀ k ∈ K, miningArg accs .claim ≠ some k) {v' w' : World} {n n' : Nat}
    (h1 : processClaim env now v accs = .ok (v', n)) (h2 : processClaim env now w accs = .ok (w', n')) :
    Around env K I v' w' ∧ n = n' := by
  obtain ⟨P, T, V, M, O, A, U, Q, rest, ut, p, m, m1, rfl, vP, -, -, vM, hO, hA, -, -, -, -, g1, g2, g3, hne, g4, g5, g6, g7, -,
    r1, rfl, hv'⟩ := processClaim_ok h1
  obtain ⟨P', T', V', M', O', A', U', Q', rest', ut', q, y, y1, e2, wP, -, -, wM, -, -, -, -, -, -, -, k2, -, -, -, k5, -, -, -,
    r2, rfl, hw'⟩ := processClaim_ok h2
  simp only [List.cons.injEq] at e2
  obtain ⟨rfl, rfl, rfl, rfl, rfl, rfl, rfl, rfl, rfl⟩ := e2
  have hM : M.key ∉ K := fun hh => hk M.key hh rfl
  obtain ⟨a1, a2⟩ := pool_slot (hv P.key) vP g1 g2 (hs A (by simp) hA) (Or.inl g3)
  obtain rfl := h.readPool (h.ne_pool a1) vP g2 k2
  obtain rfl := h.read hM vM g5 k5
  rw [r1] at r2
  obtain rfl := Except.ok.inj r2
  have hn : Around env K I (putMining env v M.key m1.claim) (putMining env w M.key m1.claim) :=
    h.putMining vM (Or.inl ⟨rfl, hM, rfl⟩)
  refine ⟨?_, rfl⟩
  have h3 : Around env K I v' (putMining env w M.key m1.claim) := by
    rcases hv' with ⟨-, ht⟩ | ⟨-, rfl⟩
    · exact hn.tokens fun j => spl_tokens ht j
    · exact hn
  rcases hw' with ⟨-, ht⟩ | ⟨-, rfl⟩
  · exact (h3.symm.tokens fun j => spl_tokens ht j).symm
  · exact h3

theorem around_fill (h : Around env K I v w) (hv : Wf env now v) {accs : List AccountInfo} (hs : RealSigners accs) {r e : Nat}
    {v' w' : World} (h1 : processFillVault env now v accs r e = .ok v') (h2 : processFillVault env now w accs r e = .ok w') :
    Around env K I v' w' := by
  obtain ⟨P, T, V, F, S, Q, rest, p, rfl, vP, -, -, hF, -, -, -, g1, g2, g3, -, -, -, -, -, -, t1⟩ := processFillVault_ok h1
  obtain ⟨P', T', V', F', S', Q', rest', q, e2, wP, -, -, -, -, -, -, -, k2, -, -, -, -, -, -, -, t2⟩ := processFillVault_ok h2
  simp only [List.cons.injEq] at e2
  obtain ⟨rfl, rfl, rfl, rfl, rfl, rfl, rfl⟩ := e2
  obtain ⟨a1, a2⟩ := pool_slot (hv P.key) vP g1 g2 (hs F (by simp) hF) (Or.inr (Or.inr g3))
  obtain rfl := h.readPool (h.ne_pool a1) vP g2 k2
  have hn := h.putPool (h.ne_pool a1) vP { p with distributionEndsAt := bod e, tokensAvailable := p.tokensAvailable + r }
  exact ((hn.tokens fun j => spl_tokens t1 j).symm.tokens fun j => spl_tokens t2 j).symm

theorem around_distribute (h : Around env K I v w) (hv : Wf env now v) {accs : List AccountInfo} (hs : RealSigners accs)
    {v' w' : World} (h1 : processDistributeRewards env now v accs = .ok v')
    (h2 : processDistributeRewards env now w accs = .ok w') : Around env K I v' w' := by
  obtain ⟨P, B, rest, p, p', r, rfl, vP, hB, g1, g2, g3, g4, g5, rfl⟩ := processDistributeRewards_ok h1
  obtain ⟨P', B', rest', q, q', r', e2, wP, -, -, k2, k3, -, k5, rfl⟩ := processDistributeRewards_ok h2
  simp only [List.cons.injEq] at e2
  obtain ⟨rfl, rfl, rfl⟩ := e2
  obtain ⟨a1, a2⟩ := pool_slot (hv P.key) vP g1 g2 (hs B (by simp) hB) (Or.inr (Or.inl g4))
  obtain rfl := h.readPool (h.ne_pool a1) vP g2 k2
  rw [g3] at k3
  obtain rfl := Except.ok.inj k3
  rw [g5] at k5
  obtain rfl := Except.ok.inj k5
  exact h.putPool (h.ne_pool a1) vP _

theorem around_close (h : Around env K I v w) {accs : List AccountInfo} (hk : ∀ k ∈ K, miningArg accs .closeMining ≠ some k)
    {v' w' : World} (h1 : processCloseMining env now v accs = .ok v') (h2 : processCloseMining env now w accs = .ok w') :
    Around env K I v' w' := by
  obtain ⟨M, O, G, A, P, rest, p, m, m1, rfl, vM, -, vG, -, -, -, -, -, -, -, -, -, -, -, -, -, rfl⟩ := processCloseMining_ok h1
  obtain ⟨M', O', G', A', P', rest', q, n, n1, e2, wM, -, wG, -, -, -, -, -, -, -, -, -, -, -, -, -, rfl⟩ := processCloseMining_ok h2
  simp only [List.cons.injEq] at e2
  obtain ⟨rfl, rfl, rfl, rfl, rfl, rfl⟩ := e2
  have hM : M.key ∉ K := fun hh => hk M.key hh rfl
  have hG := h.ne_system vG
  have e1 := h.eq_program hM vM
  have e2 := h.eq_of_owner hG fun hh => env.token_ne_system (hh.symm.trans vG)
  rw [e1, e2]
  exact (h.set hG (Or.inl rfl)).set hM (Or.inl rfl)

theorem around_create (h : Around env K I v w) {Y V : AccountInfo} {len : Nat} {own : Key} {v' w' : World}
    (h1 : createAccount env v Y V len own = .ok v') (h2 : createAccount env w Y V len own = .ok w') :
    Around env K I v' w' ∧ V.key ∉ K ∧ v' V.key = w' V.key := by
  rw [createAccount_ok] at h1 h2
  obtain ⟨-, -, c1, c2, -, rfl⟩ := h1
  obtain ⟨-, -, -, -, -, rfl⟩ := h2
  have hY := h.ne_system c2.2
  have hV := h.ne_system c1.2.2
  rw [h.eq_of_owner hY fun hh => env.token_ne_system (hh.symm.trans c2.2)]
  refine ⟨(h.set hY (Or.inl rfl)).set hV (Or.inl rfl), hV, ?_⟩
  rw [world_set_same, world_set_same]

theorem around_initPool (h : Around env K I v w) (hv : Wf env now v) (hpda : ∀ k ∈ K, env.IsPda k) {accs : List AccountInfo}
    {f d : Key} {v' w' : World} (h1 : processInitializePool env v accs f d = .ok v')
    (h2 : processInitializePool env w accs f d = .ok w') : Around env K I v' w' := by
  obtain ⟨P, T, V, Y, A, R, Q, S, rest, p, bump, va, vb, rfl, vP, -, -, -, -, -, -, -, g9, -, -, g12, g13, c1, -, i1, rfl⟩ :=
    processInitializePool_ok h1
  obtain ⟨P', T', V', Y', A', R', Q', S', rest', q, bump', wa, wb, e2, wP, -, -, -, -, -, -, -, -, -, -, k12, -, c2, -, i2, rfl⟩ :=
    processInitializePool_ok h2
  simp only [List.cons.injEq] at e2
  obtain ⟨rfl, rfl, rfl, rfl, rfl, rfl, rfl, rfl, rfl⟩ := e2
  rw [g12] at k12
  obtain ⟨-, rfl⟩ := Prod.mk.inj (Option.some.inj k12)
  have hPk : P.key ∉ K := by
    intro hk
    rcases (hv P.key).pda (hpda _ hk) with ⟨_, e⟩ | e | e
    · have := poolLen_gt; omega
    · exact env.program_ne_token (vP.symm.trans e)
    · exact env.program_ne_system (vP.symm.trans e)
  obtain ⟨n1, hV, hVe⟩ := around_create h c1 c2
  rw [createAccount_ok] at c1
  obtain ⟨-, -, -, -, -, rfl⟩ := c1
  rw [initializeTokenAccount_ok] at i1 i2
  obtain ⟨-, -, rfl⟩ := i1
  obtain ⟨-, -, rfl⟩ := i2
  rw [hVe]
  refine (n1.set hV (Or.inl rfl)).putPool hPk ?_ _
  rw [world_set_ne _ _ (Ne.symm g13.2), world_set_ne _ _ (Ne.symm g13.2), world_set_ne _ _ (Ne.symm g13.1)]
  exact vP

theorem around_initMining (h : Around env K I v w) {accs : List AccountInfo} {o : Key}
    {v' w' : World} (h1 : processInitializeMining env v accs o = .ok v')
    (h2 : processInitializeMining env w accs o = .ok w') : Around env K I v' w' := by
  obtain ⟨P, M, Y, S, rest, bump, va, rfl, vP, -, -, -, g1, c1, rfl⟩ := processInitializeMining_ok h1
  obtain ⟨P', M', Y', S', rest', bump', wa, e2, wP, -, -, -, g2, c2, rfl⟩ := processInitializeMining_ok h2
  simp only [List.cons.injEq] at e2
  obtain ⟨rfl, rfl, rfl, rfl, rfl⟩ := e2
  rw [g1] at g2
  obtain ⟨-, rfl⟩ := Prod.mk.inj (Option.some.inj g2)
  obtain ⟨n1, hM, hMe⟩ := around_create h c1 c2
  unfold putMining
  rw [hMe]
  exact n1.set hM (Or.inl rfl)

/-- An instruction on a stake and the one in its place, both successful. -/
theorem around_terms (h : Around env K I v w) (hv : Wf env now v) (hw : Wf env now w) {accs accs' : List AccountInfo}
    (hs : RealSigners accs) {i i' : Ix} (cv : NotPoolAsMining env v accs i) (cw : NotPoolAsMining env w accs' i')
    (hi : SameTerms i i') (hP : poolArg accs i = poolArg accs' i')
    (hM : ∀ j j', miningArg accs i = some j → miningArg accs' i' = some j' → InTurn K j j')
    (hD : ∀ j j', delegateArg accs i = some j → delegateArg accs' i' = some j' → InTurn K j j')
    (hO : ∀ j j', oldDelegateArg accs i = some j → oldDelegateArg accs' i' = some j' → InTurn K j j')
    (e1 : miningArg accs i = delegateArg accs i ↔ miningArg accs' i' = delegateArg accs' i')
    (e2 : miningArg accs i = oldDelegateArg accs i ↔ miningArg accs' i' = oldDelegateArg accs' i')
    {v' w' : World} {r r' : Option Nat} (h1 : exec env now v accs i = .ok (v', r)) (h2 : exec env now w accs' i' = .ok (w', r')) :
    Around env K I v' w' ∧ ∀ j, claimedOut accs j i r = 0 ∧ claimedOut accs' j i' r' = 0 := by
  rw [exec_ok] at h1 h2
  obtain ⟨h1, -⟩ := h1
  obtain ⟨h2, -⟩ := h2
  have call : ∀ {P M A D P' M' A' D' : AccountInfo} {rest rest' : List AccountInfo},
      accs = P :: M :: A :: D :: rest → accs' = P' :: M' :: A' :: D' :: rest' →
      accs[0]?.map (·.key) = accs'[0]?.map (·.key) →
      (∀ j j', accs[1]?.map (·.key) = some j → accs'[1]?.map (·.key) = some j' → InTurn K j j') →
      (∀ j j', accs[3]?.map (·.key) = some j → accs'[3]?.map (·.key) = some j' → InTurn K j j') →
      (accs[1]?.map (·.key) = accs[3]?.map (·.key) ↔ accs'[1]?.map (·.key) = accs'[3]?.map (·.key)) →
      P.key = P'.key ∧ InTurn K M.key M'.key ∧ InTurn K D.key D'.key ∧ (M.key = D.key ↔ M'.key = D'.key) := by
    rintro P M A D P' M' A' D' rest rest' rfl rfl g1 g2 g3 g4
    refine ⟨Option.some.inj g1, g2 _ _ rfl rfl, g3 _ _ rfl rfl, ?_⟩
    exact ⟨fun e => Option.some.inj (g4.mp (congrArg some e)), fun e => Option.some.inj (g4.mpr (congrArg some e))⟩
  cases i with
  | depositMining a l o dl =>
    cases i' <;> first | exact hi.elim | skip
    rename_i a' l' o' dl'
    have hi' := hi
    obtain ⟨rfl, rfl⟩ := hi
    simp only [process, res_bind_ok, res_pure_ok, Prod.mk.injEq] at h1 h2
    obtain ⟨v1, h1, rfl, rfl⟩ := h1
    obtain ⟨w1, h2, rfl, rfl⟩ := h2
    obtain ⟨P, M, A, D, p, m, d, p', m', d', c1, o1, rfl⟩ := processDepositMining_ok h1
    obtain ⟨P', M', A', D', q, n, e, q', n', e', c2, o2, rfl⟩ := processDepositMining_ok h2
    obtain ⟨rest, x1⟩ := c1.accs_eq
    obtain ⟨rest', x2⟩ := c2.accs_eq
    obtain ⟨z1, z2, z3, z4⟩ := call x1 x2 hP hM hD e1
    exact ⟨around_call h hv hw hs hi' c1 c2 z1 z2 z3 z4 o1 o2, fun _ => ⟨rfl, rfl⟩⟩
  | withdrawMining a o dl =>
    cases i' <;> first | exact hi.elim | skip
    rename_i a' o' dl'
    have hi' := hi
    obtain rfl := hi
    simp only [process, res_bind_ok, res_pure_ok, Prod.mk.injEq] at h1 h2
    obtain ⟨v1, h1, rfl, rfl⟩ := h1
    obtain ⟨w1, h2, rfl, rfl⟩ := h2
    obtain ⟨P, M, A, D, p, m, d, p', m', d', c1, o1, rfl⟩ := processWithdrawMining_ok h1
    obtain ⟨P', M', A', D', q, n, e, q', n', e', c2, o2, rfl⟩ := processWithdrawMining_ok h2
    obtain ⟨rest, x1⟩ := c1.accs_eq
    obtain ⟨rest', x2⟩ := c2.accs_eq
    obtain ⟨z1, z2, z3, z4⟩ := call x1 x2 hP hM hD e1
    exact ⟨around_call h hv hw hs hi' c1 c2 z1 z2 z3 z4 o1 o2, fun _ => ⟨rfl, rfl⟩⟩
  | extendStake ol nl ts b a o dl =>
    cases i' <;> first | exact hi.elim | skip
    rename_i ol' nl' ts' b' a' o' dl'
    have hi' := hi
    obtain ⟨rfl, rfl, rfl, rfl, rfl⟩ := hi
    simp only [process, res_bind_ok, res_pure_ok, Prod.mk.injEq] at h1 h2
    obtain ⟨v1, h1, rfl, rfl⟩ := h1
    obtain ⟨w1, h2, rfl, rfl⟩ := h2
    obtain ⟨P, M, A, D, p, m, d, p', m', d', c1, o1, rfl⟩ := processExtendStake_ok h1
    obtain ⟨P', M', A', D', q, n, e, q', n', e', c2, o2, rfl⟩ := processExtendStake_ok h2
    obtain ⟨rest, x1⟩ := c1.accs_eq
    obtain ⟨rest', x2⟩ := c2.accs_eq
    obtain ⟨z1, z2, z3, z4⟩ := call x1 x2 hP hM hD e1
    exact ⟨around_call h hv hw hs hi' c1 c2 z1 z2 z3 z4 o1 o2, fun _ => ⟨rfl, rfl⟩⟩
  | slash o n mu ex =>
    cases i' <;> first | exact hi.elim | skip
    obtain ⟨rfl, rfl, rfl⟩ := hi
    simp only [process, res_bind_ok, res_pure_ok, Prod.mk.injEq] at h1 h2
    obtain ⟨v1, h1, rfl, rfl⟩ := h1
    obtain ⟨w1, h2, rfl, rfl⟩ := h2
    exact ⟨around_slash h hv hw hs hP hM h1 h2, fun _ => ⟨rfl, rfl⟩⟩
  | changeDelegate a nd =>
    cases i' <;> first | exact hi.elim | skip
    obtain rfl := hi
    simp only [process, res_bind_ok, res_pure_ok, Prod.mk.injEq] at h1 h2
    obtain ⟨v1, h1, rfl, rfl⟩ := h1
    obtain ⟨w1, h2, rfl, rfl⟩ := h2
    exact ⟨around_redelegate h hv hw hs cv cw hP hM hD hO e1 e2 h1 h2, fun _ => ⟨rfl, rfl⟩⟩
  | _ => exact hi.elim

/-- Every instruction that succeeds in both worlds, other than closing the mining of a member. -/
theorem around_exec (h : Around env K I v w) (hv : Wf env now v) (hw : Wf env now w) (hpda : ∀ k ∈ K, env.IsPda k)
    {accs : List AccountInfo} (hs : RealSigners accs) {i : Ix} (cv : NotPoolAsMining env v accs i)
    (cw : NotPoolAsMining env w accs i)
    (hk : ∀ k ∈ K, miningArg accs i = some k → i ≠ .closeMining)
    {v' w' : World} {r r' : Option Nat} (h1 : exec env now v accs i = .ok (v', r)) (h2 : exec env now w accs i = .ok (w', r')) :
    Around env K I v' w' ∧ ∀ j, j ∉ K → claimedOut accs j i r = claimedOut accs j i r' := by
  have terms : SameTerms i i → Around env K I v' w' ∧ ∀ j, j ∉ K → claimedOut accs j i r = claimedOut accs j i r' := by
    intro hi
    have turn : ∀ {x : Option Key} (j j' : Key), x = some j → x = some j' → InTurn K j j' :=
      fun j j' a b => Or.inl (Option.some.inj (a.symm.trans b))
    obtain ⟨g1, g2⟩ := around_terms h hv hw hs cv cw hi rfl turn turn turn Iff.rfl Iff.rfl h1 h2
    exact ⟨g1, fun j _ => by rw [(g2 j).1, (g2 j).2]⟩
  have h1' := h1
  have h2' := h2
  rw [exec_ok] at h1 h2
  obtain ⟨h1, -⟩ := h1
  obtain ⟨h2, -⟩ := h2
  cases i with
  | claim =>
    simp only [process, res_bind_ok, res_pure_ok, Prod.mk.injEq, Prod.exists] at h1 h2
    obtain ⟨v1, n, h1, rfl, rfl⟩ := h1
    obtain ⟨w1, n', h2, rfl, rfl⟩ := h2
    by_cases hm : ∃ k ∈ K, miningArg accs .claim = some k
    · obtain ⟨k, hkK, hm⟩ := hm
      refine ⟨(around_claim_one (around_claim_one h hv hs cv hkK hm h1).symm hw hs cw hkK hm h2).symm, fun j hj => ?_⟩
      have : miningArg accs .claim ≠ some j := by
        rw [hm]; intro hh; exact hj (Option.some.inj hh ▸ hkK)
      simp only [claimedOut, if_neg this]
    · obtain ⟨g1, rfl⟩ := around_claim h hv hs (fun k hkK hm' => hm ⟨k, hkK, hm'⟩) h1 h2
      exact ⟨g1, fun _ _ => rfl⟩
  | depositMining a l o dl => exact terms ⟨rfl, rfl⟩
  | withdrawMining a o dl => exact terms rfl
  | extendStake ol nl ts b a o dl => exact terms ⟨rfl, rfl, rfl, rfl, rfl⟩
  | changeDelegate a nd => exact terms rfl
  | slash o n mu ex => exact terms ⟨rfl, rfl, rfl⟩
  | initializePool f d =>
    simp only [process, res_bind_ok, res_pure_ok, Prod.mk.injEq] at h1 h2
    obtain ⟨v1, h1, rfl, rfl⟩ := h1
    obtain ⟨w1, h2, rfl, rfl⟩ := h2
    exact ⟨around_initPool h hv hpda h1 h2, fun _ _ => rfl⟩
  | fillVault r e =>
    simp only [process, res_bind_ok, res_pure_ok, Prod.mk.injEq] at h1 h2
    obtain ⟨v1, h1, rfl, rfl⟩ := h1
    obtain ⟨w1, h2, rfl, rfl⟩ := h2
    exact ⟨around_fill h hv hs h1 h2, fun _ _ => rfl⟩
  | initializeMining o =>
    simp only [process, res_bind_ok, res_pure_ok, Prod.mk.injEq] at h1 h2
    obtain ⟨v1, h1, rfl, rfl⟩ := h1
    obtain ⟨w1, h2, rfl, rfl⟩ := h2
    exact ⟨around_initMining h h1 h2, fun _ _ => rfl⟩
  | distributeRewards =>
    simp only [process, res_bind_ok, res_pure_ok, Prod.mk.injEq] at h1 h2
    obtain ⟨v1, h1, rfl, rfl⟩ := h1
    obtain ⟨w1, h2, rfl, rfl⟩ := h2
    exact ⟨around_distribute h hv hs h1 h2, fun _ _ => rfl⟩
  | closeMining =>
    simp only [process, res_bind_ok, res_pure_ok, Prod.mk.injEq] at h1 h2
    obtain ⟨v1, h1, rfl, rfl⟩ := h1
    obtain ⟨w1, h2, rfl, rfl⟩ := h2
    exact ⟨around_close h (fun k hkK hh => hk k hkK hh rfl) h1 h2, fun _ _ => rfl⟩
  | decreaseRewards o n =>
    simp only [process, res_bind_ok, res_pure_ok, Prod.mk.injEq] at h1 h2
    obtain ⟨v1, h1, rfl, rfl⟩ := h1
    obtain ⟨w1, h2, rfl, rfl⟩ := h2
    exact ⟨around_decrease h h1 h2, fun _ _ => rfl⟩

end

theorem around_pool {K : List Key} {I : Key → Mining} {v w : World} (h : Around env K I v w) {P : Key} {p : Pool}
    (hp : PoolAt env v P p) : PoolAt env w P p := (poolAt_congr (h.eq_program (h.ne_pool hp.2) hp.1)).mp hp

/-- What other programs do. -/
theorem around_ext {K : List Key} {I : Key → Mining} {s t : Chain} (hn : Around env K I s.world t.world) {w w' : World}
    (hx : ∀ j, j ∉ K → SameOrTokens env (w j) (w' j)) (hl : ∀ j, j ∈ K → (w j).lamports = (w' j).lamports)
    (hv : (Event.ext w).Valid env s) (hv' : (Event.ext w').Valid env t) : Around env K I w w' := by
  refine ⟨hx, fun j hj => ?_, fun j hj => ?_, hl, fun j hj => ?_, fun j hj => ?_⟩
  · obtain ⟨m, m1, m2⟩ := hn.first j hj
    obtain ⟨a1, a2, a3, a4⟩ := hv.program_owned j m1.1
    exact ⟨m, ⟨a1.trans m1.1, a3.trans m1.2⟩, m2⟩
  · obtain ⟨m, m1, m2⟩ := hn.second j hj
    obtain ⟨a1, a2, a3, a4⟩ := hv'.program_owned j m1.1
    exact ⟨m, ⟨a1.trans m1.1, a3.trans m1.2⟩, m2⟩
  · obtain ⟨m, m1, m2⟩ := hn.first j hj
    obtain ⟨n, n1, n2⟩ := hn.second j hj
    obtain ⟨a1, a2, a3, a4⟩ := hv.program_owned j m1.1
    obtain ⟨b1, b2, b3, b4⟩ := hv'.program_owned j n1.1
    rw [a2, b2]; exact hn.len j hj
  · obtain ⟨m, m1, m2⟩ := hn.first j hj
    obtain ⟨a1, a2, a3, a4⟩ := hv.program_owned j m1.1
    exact Nat.lt_of_lt_of_le (hn.alive j hj) a4

/-- An event that happens in both histories. -/
theorem around_event {K : List Key} {I : Key → Mining} {s t : Chain} {e e' : Event} (hnow : s.now = t.now)
    (hn : Around env K I s.world t.world)
    (hws : Wf env s.now s.world) (hwt : Wf env t.now t.world) (hpda : ∀ k ∈ K, env.IsPda k)
    (he : SameOutside env K e e' ∨ InPlaceOf K e e') (ha : goesThrough env s e = goesThrough env t e') (hv : e.Valid env s)
    (hv' : e'.Valid env t) (hc : NoneClosed env K s e) (hc' : NoneClosed env K t e') :
    (s.apply env e).now = (t.apply env e').now ∧ Around env K I (s.apply env e).world (t.apply env e').world ∧
      (∀ j, j ∉ K → claimedBy env j s e = claimedBy env j t e') := by
  have both : ∀ {accs accs' : List AccountInfo} {i i' : Ix}, e = .ix accs i → e' = .ix accs' i' →
      (∀ {v' w' : World} {r r' : Option Nat}, exec env s.now s.world accs i = .ok (v', r) →
        exec env s.now t.world accs' i' = .ok (w', r') → Around env K I v' w' ∧
          ∀ j, j ∉ K → claimedOut accs j i r = claimedOut accs' j i' r') →
      (s.apply env e).now = (t.apply env e').now ∧ Around env K I (s.apply env e).world (t.apply env e').world ∧
      (∀ j, j ∉ K → claimedBy env j s e = claimedBy env j t e') := by
    rintro accs accs' i i' rfl rfl ok
    have ha' : succeeded env s accs i = succeeded env t accs' i' := ha
    cases hs1 : exec env s.now s.world accs i with
    | error er =>
      cases h2 : exec env t.now t.world accs' i' with
      | ok r => simp [succeeded, hs1, h2] at ha'
      | error er' =>
        rw [apply_ix_error hs1, apply_ix_error h2]
        refine ⟨hnow, hn, fun j _ => ?_⟩
        simp only [claimedBy, hs1, h2]
    | ok r =>
      cases h2 : exec env t.now t.world accs' i' with
      | error er' => simp [succeeded, hs1, h2] at ha'
      | ok r' =>
        obtain ⟨v1, r⟩ := r
        obtain ⟨w1, r'⟩ := r'
        rw [apply_ix_ok hs1, apply_ix_ok h2]
        have h2' := h2
        rw [← hnow] at h2'
        obtain ⟨g1, g2⟩ := ok hs1 h2'
        refine ⟨hnow, g1, fun j hj => ?_⟩
        simp only [claimedBy, hs1, h2]
        exact g2 j hj
  have hwt' : Wf env s.now t.world := hnow ▸ hwt
  rcases he with (rfl | ⟨w, w', rfl, rfl, hx, hl⟩) | ⟨accs, accs', i, i', rfl, rfl, x1, x2, x3, x4, x5, x6⟩
  · cases e with
    | ix accs i =>
      refine both rfl rfl fun {v' w' r r'} a b => ?_
      exact around_exec hn hws hwt' hpda hv hc.1 hc'.1 (hc.2 (by simp [succeeded, a])) a b
    | tick d => exact ⟨by show s.now + d = t.now + d; rw [hnow], hn, fun _ _ => rfl⟩
    | gc j =>
      have hj : j ∉ K := fun hj => absurd (show (s.world j).lamports = 0 from hv) (by have := hn.alive j hj; omega)
      exact ⟨hnow, hn.set hj (Or.inl rfl), fun _ _ => rfl⟩
    | ext w => exact ⟨hnow, around_ext hn (fun _ _ => Or.inl rfl) (fun _ _ => rfl) hv hv', fun _ _ => rfl⟩
  · exact ⟨hnow, around_ext hn hx hl hv hv', fun _ _ => rfl⟩
  · refine both rfl rfl fun {v' w' r r'} a b => ?_
    obtain ⟨g1, g2⟩ := around_terms hn hws hwt' hv hc.1 hc'.1 x1 x4
      (fun j j' p q => Or.inr ⟨x2 j (Or.inl p), x3 j' (Or.inl q)⟩)
      (fun j j' p q => Or.inr ⟨x2 j (Or.inr (Or.inl p)), x3 j' (Or.inr (Or.inl q))⟩)
      (fun j j' p q => Or.inr ⟨x2 j (Or.inr (Or.inr p)), x3 j' (Or.inr (Or.inr q))⟩) x5 x6 a b
    exact ⟨g1, fun j _ => by rw [(g2 j).1, (g2 j).2]⟩

/-- What members do among themselves in one of the histories. -/
theorem around_among {K : List Key} {I : Key → Mining} {s : Chain} {w : World} {e : Event} (hn : Around env K I s.world w)
    (hws : Wf env s.now s.world) (ha : AmongThem K e) (hv : e.Valid env s) (hc : CleanEvent env s e) :
    (s.apply env e).now = s.now ∧ Around env K I (s.apply env e).world w ∧ ∀ j, j ∉ K → claimedBy env j s e = 0 := by
  cases e with
  | ix accs i =>
    cases h1 : exec env s.now s.world accs i with
    | error er =>
      rw [apply_ix_error h1]
      exact ⟨rfl, hn, fun j _ => by simp only [claimedBy, h1]⟩
    | ok r =>
      obtain ⟨v1, r⟩ := r
      rw [apply_ix_ok h1]
      have h1' := h1
      rw [exec_ok] at h1
      obtain ⟨h1, -⟩ := h1
      cases i with
      | claim =>
        obtain ⟨k, hkK, hk⟩ := ha
        refine ⟨rfl, ?_, fun j hj => ?_⟩
        · simp only [process, res_bind_ok, res_pure_ok, Prod.mk.injEq, Prod.exists] at h1
          obtain ⟨v2, n, h1, rfl, rfl⟩ := h1
          exact around_claim_one hn hws hv hc hkK hk h1
        · simp only [claimedBy, h1']
          cases r with
          | none => rfl
          | some n =>
            have : miningArg accs .claim ≠ some j := by rw [hk]; intro hh; exact hj (Option.some.inj hh ▸ hkK)
            simp only [claimedOut, if_neg this]
      | decreaseRewards o n =>
        obtain ⟨k, hkK, hk⟩ := ha
        refine ⟨rfl, ?_, fun j hj => by simp only [claimedBy, h1']; rfl⟩
        simp only [process, res_bind_ok, res_pure_ok, Prod.mk.injEq] at h1
        obtain ⟨v2, h1, rfl, rfl⟩ := h1
        exact around_decrease_one hn hkK hk h1
      | changeDelegate a nd =>
        refine ⟨rfl, ?_, fun j hj => by simp only [claimedBy, h1']; rfl⟩
        simp only [process, res_bind_ok, res_pure_ok, Prod.mk.injEq] at h1
        obtain ⟨v2, h1, rfl, rfl⟩ := h1
        exact around_redelegate_one hn hws hv hc ha h1
      | _ => exact ha.elim
  | _ => exact ha.elim

/-- Two histories that differ only in what members do among themselves. -/
theorem around_runs {K : List Key} {I : Key → Mining} (hpda : ∀ k ∈ K, env.IsPda k) {s t s' t' : Chain} {es es' : List Event}
    (h : UpToGroup env K s t es es') : RunsWith env (NoneClosed env K) s es s' →
    RunsWith env (NoneClosed env K) t es' t' → Wf env s.now s.world → Wf env t.now t.world → s.now = t.now →
    Around env K I s.world t.world →
    s'.now = t'.now ∧ Around env K I s'.world t'.world ∧
      ∀ j, j ∉ K → totalIn env (claimedBy env j) s es = totalIn env (claimedBy env j) t es' := by
  induction h with
  | done =>
    intro r1 r2 _ _ hnow hn
    cases r1; cases r2
    exact ⟨hnow, hn, fun _ _ => rfl⟩
  | @both s t e e' es es' same alike rest ih =>
    intro r1 r2 hws hwt hnow hn
    cases r1 with
    | cons v1 c1 r1 =>
    cases r2 with
    | cons v2 c2 r2 =>
      obtain ⟨g1, g2, g3⟩ := around_event hnow hn hws hwt hpda same alike v1 v2 c1 c2
      obtain ⟨k1, k2, k3⟩ := ih r1 r2 (wf_apply hws v1 c1.1) (wf_apply hwt v2 c2.1) g1 g2
      refine ⟨k1, k2, fun j hj => ?_⟩
      simp only [totalIn, g3 j hj, k3 j hj]
  | @first s t e es es' among rest ih =>
    intro r1 r2 hws hwt hnow hn
    cases r1 with
    | cons v1 c1 r1 =>
      obtain ⟨g1, g2, g3⟩ := around_among hn hws among v1 c1.1
      obtain ⟨k1, k2, k3⟩ := ih r1 r2 (wf_apply hws v1 c1.1) hwt (g1.trans hnow) g2
      refine ⟨k1, k2, fun j hj => ?_⟩
      simp only [totalIn, g3 j hj, k3 j hj, Nat.zero_add]
  | @second s t e es es' among rest ih =>
    intro r1 r2 hws hwt hnow hn
    cases r2 with
    | cons v2 c2 r2 =>
      obtain ⟨g1, g2, g3⟩ := around_among hn.symm hwt among v2 c2.1
      obtain ⟨k1, k2, k3⟩ := ih r1 r2 hws (wf_apply hwt v2 c2.1) (hnow.trans g1.symm) g2.symm
      refine ⟨k1, k2, fun j hj => ?_⟩
      simp only [totalIn, g3 j hj, k3 j hj, Nat.zero_add]

end Verif
