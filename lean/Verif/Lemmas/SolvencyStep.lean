import Verif.Lemmas.SolvencyMoves
/-!
One orderly instruction and the books of a pool.
-/

namespace Verif

open Spec

variable {env : Env}

/-- Token accounts at vault addresses of `P` belong to an existing pool. -/
def Vaulted (env : Env) (w : World) (P : Key) : Prop :=
  ∀ T b K, env.vaultAddr P T b = some K → (w K).owner = env.tokenProgram →
    ∃ p, PoolAt env w P p ∧ p.rewardMint = T ∧ p.bump = b

/-- What an orderly instruction does to the books of the pool `P` with vault `V`. -/
inductive Turn (env : Env) (now : Nat) (w w' : World) (P V : Key) (p : Pool) :
    Pool → List (Key × Mining × Mining) → Prop
  | books {p' : Pool} {L : List (Key × Mining × Mining)} (same : p'.cumulative = p.cumulative)
      (funds : env.findVault P p.rewardMint = some (V, p.bump) →
        10 ^ 16 * (balance w V : Int) - 10 ^ 16 * (p.tokensAvailable : Int) + gain (fun m => owed m p.cumulative) L ≤
          10 ^ 16 * (balance w' V : Int) - 10 ^ 16 * (p'.tokensAvailable : Int))
      (cover : ∀ x, midnight now ≤ x → totalOn p x + gain (fun m => earningOn m x) L ≤ totalOn p' x)
      (members : ∀ y ∈ L, Current now p.cumulative y.2.2 ∨
        (Sound now p.cumulative y.2.2 ∧ y.2.2.share + y.2.2.stakeFromOthers ≤ y.2.1.share + y.2.1.stakeFromOthers)) :
      Turn env now w w' P V p p' L
  | distribute {p' : Pool} {r : Nat} (op : p.distribute env.caps now r = .ok p')
      (funds : balance w V ≤ balance w' V) : Turn env now w w' P V p p' []

theorem turn_same {now : Nat} {w w' : World} {P V : Key} {p : Pool}
    (h : env.findVault P p.rewardMint = some (V, p.bump) → balance w V ≤ balance w' V) :
    Turn env now w w' P V p p [] := by
  refine .books rfl (fun hv => ?_) (fun x _ => by simp [gain]) (by simp)
  have := h hv
  simp only [gain, List.map_nil, List.sum_nil]; omega

theorem turn_quiet {now : Nat} {w w' : World} {P V : Key} {p p' : Pool} {L : List (Key × Mining × Mining)}
    (hq : Quiet now p p') (hb : balance w V ≤ balance w' V) (ho : ∀ y ∈ L, owed y.2.2 p.cumulative ≤ owed y.2.1 p.cumulative)
    (cover : ∀ x, midnight now ≤ x → totalOn p x + gain (fun m => earningOn m x) L ≤ totalOn p' x)
    (members : ∀ y ∈ L, Current now p.cumulative y.2.2 ∨
        (Sound now p.cumulative y.2.2 ∧ y.2.2.share + y.2.2.stakeFromOthers ≤ y.2.1.share + y.2.1.stakeFromOthers)) :
    Turn env now w w' P V p p' L := by
  refine .books hq.cumulative (fun _ => ?_) cover members
  have := gain_nonpos (g := fun m => owed m p.cumulative) ho
  have := hq.avail
  omega

theorem miningArg_claim {P T V M O A U K : AccountInfo} {rest : List AccountInfo} :
    poolArg (P :: T :: V :: M :: O :: A :: U :: K :: rest) .claim = some P.key := rfl

/-- The vault named in an instruction for the pool is the pool's vault. -/
theorem vault_eq {w : World} {P T K V : Key} {p : Pool} (hv : Vaulted env w P) (hp : PoolAt env w P p)
    (hT : env.vaultAddr P T p.bump = some K) (ho : (w K).owner = env.tokenProgram)
    (hV : env.findVault P p.rewardMint = some (V, p.bump)) : K = V := by
  obtain ⟨q, hq, h1, h2⟩ := hv T p.bump K hT ho
  rw [PoolAt.unique hq hp] at h1
  have := env.findVault_spec _ _ _ _ hV
  rw [h1, hT] at this
  cases this; rfl

/-- The stake operations of an orderly pool. -/
theorem stakeOp_sound {caps : Caps} {now : Nat} {p p' : Pool} {m m' : Mining} {d d' : Option Mining} {i : Ix}
    (hp : PoolOk now p) (hm : MiningOk m) (hb : total m.diffs ≤ m.share) (hd : DelIs d)
    (hi : raisesDelegate i = true → ∀ x, d = some x → lastIndex 0 p.cumulative ≤ x.index)
    (ho : OrderlyStake caps now p m i) (h : StakeOp caps now p m d p' m' d' i) : StakeSound now p p' m m' d d' := by
  cases i <;> first
    | exact h.elim
    | exact deposit_sound hp hm hb hd (hi rfl) ho.1 ho.2 h
    | exact withdraw_sound hp hm hb hd ho h
    | exact extend_sound hp hm hb hd ho.1 ho.2.1 ho.2.2.1 ho.2.2.2 h
    | (obtain ⟨h, rfl, rfl⟩ := h; exact slash_sound hp hm hb ho h)

theorem Step.turn {now : Nat} {w w' : World} {accs : List AccountInfo} {i : Ix} {ret : Option Nat}
    (hi : env.PdaInjective) (hw : Wf env now w) {P V : Key} {p : Pool} (hv : Vaulted env w P)
    (hV : env.findVault P p.rewardMint = some (V, p.bump))
    (hs : ∀ k m, Member env w P k m → Sound now p.cumulative m) (ho : OrderlyIx env P V now w accs i)
    (hp : PoolAt env w P p) (h : Step env now w w' accs i ret) :
    ∃ p' L, PoolAt env w' P p' ∧ Moves env w w' P L ∧ Turn env now w w' P V p p' L := by
  have hP0 : P ≠ 0 := (hw P).nonzero hp.1
  have hVa := env.findVault_spec _ _ _ _ hV
  have tok : ∀ k j, (w k).owner = env.programId → (w j).owner = env.tokenProgram → k ≠ j := by
    rintro k j hk hj rfl; exact env.program_ne_token (hk.symm.trans hj)
  have sys : ∀ k j, (w k).owner = env.programId → (w j).owner = env.systemProgram → k ≠ j := by
    rintro k j hk hj rfl; exact env.program_ne_system (hk.symm.trans hj)
  have hgood := (poolAt_good hw hp).ok
  cases h with
  | @stake _ Q M A D q q' m m' d d' accs_eq op chk del quiet same sfo ok' sameDel eff shell written =>
    obtain ⟨a1, a2, a3⟩ := accs_eq.pool ⟨_, _, _, _, _, _, _, _, op⟩
    have hbal := Shell.balance hw (shell V)
    by_cases e : Q.key = P
    · subst e
      obtain rfl := PoolAt.unique hp eff.pool
      have hM : Member env w Q.key M.key m := ⟨eff.mining, chk.inPool⟩
      have hmem : D.key ≠ M.key → ∃ x, Member env w Q.key D.key x ∧
          (raisesDelegate i = true → x.index = lastIndex 0 p.cumulative) :=
        fun hne => ho.delegate a1 _ _ _ a2 (a3 hne) hne hp
      have hdel : ∀ x, d = some x → Member env w Q.key D.key x ∧
          (raisesDelegate i = true → x.index = lastIndex 0 p.cumulative) := by
        rintro x rfl
        rcases eff.delegate with ⟨-, h1, -⟩ | ⟨h1, h2, h3, x1, x', h4, h5, h6⟩
        · cases h1
        · cases h4
          obtain ⟨y, hy, hy2⟩ := hmem h1
          obtain ⟨rfl, -⟩ := h6 y hy.1
          exact ⟨hy, hy2⟩
      have hds : DelIs d := fun x hx => by
        have := hs _ _ (hdel x hx).1
        exact ⟨this.ok, this.backed⟩
      obtain ⟨s1, s2, δ, s3, s4⟩ := stakeOp_sound hgood chk.miningOk (hs _ _ hM).backed hds
        (fun hr x hx => Nat.le_of_eq ((hdel x hx).2 hr).symm)
        (ho.stake a1 _ _ _ a2 eff.mining hp) op
      refine ⟨q', _, eff.pool', eff.moves same sameDel chk.inPool fun hne => (hmem hne).imp fun _ h => h.1, ?_⟩
      refine turn_quiet quiet hbal ?_ ?_ ?_
      · intro y hy
        rcases List.mem_cons.mp hy with rfl | hy
        · exact s1
        · exact (s3.mem hy).2.2.1
      · intro x hx
        rw [gain_cons, gain_pairs s3 hx]
        have := s4 x hx
        simp only; omega
      · intro y hy
        rcases List.mem_cons.mp hy with rfl | hy
        · exact Or.inl s2
        · exact Or.inl (s3.mem hy).2.2.2
    · have hpool : PoolAt env w' P p := by
        rcases eff.pools hp with ⟨h1, -⟩ | ⟨-, h1⟩
        · exact absurd h1.symm e
        · exact h1
      refine ⟨p, [], hpool, eff.moves_other same sameDel written ?_ ?_, turn_same fun _ => hbal⟩
      · rw [chk.inPool]; exact e
      · intro x hx
        rcases (del x hx).pool hi with h1 | h1 <;> rw [h1]
        · exact e
        · exact Ne.symm hP0
  | @redelegate a nd Q M A O Old New rest q q' m m' od od' dn dn' accs_eq signed op chk newDel oldOk oldAt ne quiet same sfo
      ok' sameNew sameOld neP eff shell writtenOld writtenNew =>
    subst accs_eq
    have hbal := Shell.balance hw (shell V)
    by_cases e : Q.key = P
    · subst e
      obtain rfl := PoolAt.unique hp eff.pool
      have hM : Member env w Q.key M.key m := ⟨eff.mining, chk.inPool⟩
      have hmemO : Old.key ≠ M.key → ∃ x, Member env w Q.key Old.key x :=
        fun hne => ho.oldDelegate rfl M.key Old.key rfl rfl hne
      have hmemN : New.key ≠ M.key → ∃ x, Member env w Q.key New.key x ∧
          (true = true → x.index = lastIndex 0 p.cumulative) :=
        fun hne => ho.delegate rfl M.key New.key p rfl rfl hne hp
      have hdo : DelIs od := by
        rintro x rfl
        rcases eff.old with ⟨-, h1, -⟩ | ⟨h1, h2, x1, x', h4, h5, h6⟩
        · cases h1
        · cases h4
          obtain ⟨y, hy⟩ := hmemO h1
          obtain ⟨rfl, -⟩ := h6 y hy.1
          have := hs _ _ hy
          exact ⟨this.ok, this.backed⟩
      have hdn : ∀ x, dn = some x → Member env w Q.key New.key x ∧ x.index = lastIndex 0 p.cumulative := by
        rintro x rfl
        rcases eff.new with ⟨-, h1, -⟩ | ⟨h1, h2, x1, x', h4, h5, h6⟩
        · cases h1
        · cases h4
          obtain ⟨y, hy, hy2⟩ := hmemN h1
          obtain ⟨rfl, -⟩ := h6 y hy.1
          exact ⟨hy, hy2 rfl⟩
      have hdn' : DelIs dn := fun x hx => by
        have := hs _ _ (hdn x hx).1
        exact ⟨this.ok, this.backed⟩
      obtain ⟨s1, s2, δ, δ', s3, s4, s5⟩ := changeDelegate_sound hgood chk.miningOk (hs _ _ hM).backed hdn' hdo
        (fun x hx => Nat.le_of_eq (hdn x hx).2.symm) op
      refine ⟨q', _, eff.pool', eff.moves same sameOld sameNew ne chk.inPool hmemO
        fun hne => (hmemN hne).imp fun _ h => h.1, ?_⟩
      refine turn_quiet quiet hbal ?_ ?_ ?_
      · intro y hy
        rcases List.mem_cons.mp hy with rfl | hy
        · exact s1
        · rcases List.mem_append.mp hy with hy | hy
          · exact (s3.mem hy).2.2.1
          · exact (s4.mem hy).2.2.1
      · intro x hx
        rw [gain_cons, gain_append, gain_pairs s3 hx, gain_pairs s4 hx]
        have := s5 x hx
        simp only; omega
      · intro y hy
        rcases List.mem_cons.mp hy with rfl | hy
        · exact Or.inl s2
        · rcases List.mem_append.mp hy with hy | hy
          · exact Or.inl (s3.mem hy).2.2.2
          · exact Or.inl (s4.mem hy).2.2.2
    · have e0 : P ≠ Q.key := Ne.symm e
      have hpool : PoolAt env w' P p := by
        refine (poolAt_congr (eff.frame P e0 ?_ ?_ ?_)).mpr hp
        · rintro rfl; exact PoolAt.not_mining hp eff.mining
        · rintro rfl
          rcases eff.old with ⟨h3, -⟩ | ⟨-, h3, -⟩
          · rw [h3] at hp; exact PoolAt.not_mining hp eff.mining
          · exact h3 p hp
        · rintro rfl
          rcases eff.new with ⟨h3, -⟩ | ⟨-, h3, -⟩
          · rw [h3] at hp; exact PoolAt.not_mining hp eff.mining
          · exact h3 p hp
      refine ⟨p, [], hpool, eff.moves_other same sameOld sameNew writtenOld writtenNew ?_ ?_ ?_, turn_same fun _ => hbal⟩
      · rw [chk.inPool]; exact e
      · intro x hx hxp
        rcases oldAt x hx with ⟨h1, -⟩ | h1
        · exact ho.otherPools (by show some Q.key ≠ some P; simpa using e) Old.key rfl x ⟨h1, hxp⟩
        · rw [h1.pool] at hxp; exact hP0 hxp.symm
      · intro x hx
        rcases (newDel x hx).pool hi with h1 | h1 <;> rw [h1]
        · exact e
        · exact Ne.symm hP0
  | @decrease o n A Q M rest q m m' accs_eq chk pool op mining mining' same ok' sfo frame shell =>
    have hbal := Shell.balance hw (shell V)
    have hpool : PoolAt env w' P p :=
      (poolAt_congr (frame P (by rintro rfl; exact PoolAt.not_mining hp mining))).mpr hp
    obtain ⟨d1, d2, d3, d4, d5, d6⟩ := decrease_earning op
    by_cases e : Q.key = P
    · subst e
      have hM : Member env w Q.key M.key m := ⟨mining, chk.inPool⟩
      have hsm := hs _ _ hM
      refine ⟨p, [(M.key, m, m')], hpool, ⟨by simp, ?_, ?_⟩, turn_quiet (.refl hgood) hbal ?_ ?_ ?_⟩
      · intro y hy; simp at hy; subst hy
        exact ⟨hM, mining', same.rewardPool.trans chk.inPool⟩
      · intro k y hk hy; simp at hk
        exact Or.inl ⟨(miningAt_congr (frame k hk)).mp hy.1, hy.2⟩
      · intro y hy; simp at hy; subst hy
        exact owed_le _ (Nat.le_of_eq d4) d3.symm fun x _ => d1 x.1
      · intro x hx
        have := d1 x
        rw [gain_cons]; simp only [gain, List.map_nil, List.sum_nil]; omega
      · intro y hy; simp at hy; subst hy
        refine Or.inr ⟨⟨ok', d2 hsm.backed, by rw [d3]; exact hsm.index, fun x hx => ?_⟩, by show m'.share + m'.stakeFromOthers ≤ m.share + m.stakeFromOthers; omega⟩
        rw [d3]
        have : x.1 ∈ m'.diffs.map (·.1) := List.mem_map.mpr ⟨x, hx, rfl⟩
        rw [d6] at this
        obtain ⟨x0, hx0, he⟩ := List.mem_map.mp this
        rw [← he]; exact hsm.ahead x0 hx0
    · refine ⟨p, [], hpool, moves_nil fun k y hy => ?_, turn_same fun _ => hbal⟩
      by_cases e2 : k = M.key
      · subst e2
        rw [MiningAt.unique hy.1 mining'] at hy
        exact absurd (chk.inPool.symm.trans (same.rewardPool.symm.trans hy.2)) e
      · exact Or.inl (frame k e2)
  | @claim Q T K M O A U Kk rest q m m1 n accs_eq signedO signedA eff =>
    obtain ⟨t, ht, -⟩ := eff.userTok
    have hpool : PoolAt env w' P p := (poolAt_congr (eff.frame P (by rintro rfl; exact PoolAt.not_mining hp eff.mining)
      (tok _ _ hp.1 eff.vaultTok) (tok _ _ hp.1 ht.1))).mpr hp
    have hframe : ∀ k y, k ≠ M.key → Member env w' P k y → Member env w P k y := by
      intro k y hk hy
      by_cases e1 : k = K.key
      · subst e1
        by_cases hn : n = 0
        · exact ⟨(miningAt_congr (eff.zero hn _ hk)).mp hy.1, hy.2⟩
        · obtain ⟨w1, h1, h2⟩ := eff.transfer (Nat.pos_of_ne_zero hn)
          have := (h2.meta' K.key).1
          rw [h1 _ eff.vaultNe, eff.vaultTok] at this
          exact absurd (hy.1.1.symm.trans this) env.program_ne_token
      · by_cases e2 : k = U.key
        · subst e2
          by_cases hn : n = 0
          · exact ⟨(miningAt_congr (eff.zero hn _ hk)).mp hy.1, hy.2⟩
          · obtain ⟨w1, h1, h2⟩ := eff.transfer (Nat.pos_of_ne_zero hn)
            have := (h2.meta' U.key).1
            rw [h1 _ eff.userNe, ht.1] at this
            exact absurd (hy.1.1.symm.trans this) env.program_ne_token
        · exact ⟨(miningAt_congr (eff.frame k hk e1 e2)).mp hy.1, hy.2⟩
    have hbal : balance w V ≤ balance w' V + n ∧ (V ≠ K.key → balance w V ≤ balance w' V) := by
      by_cases hM : V = M.key
      · have : balance w V = 0 := by rw [hM]; exact balance_of_program hw eff.mining.1
        rw [this]; exact ⟨Nat.zero_le _, fun _ => Nat.zero_le _⟩
      · by_cases hn : n = 0
        · have := balance_congr (w := w) (w' := w') (k := V) (by rw [eff.zero hn _ hM])
          exact ⟨by omega, fun _ => by omega⟩
        · obtain ⟨w1, h1, h2⟩ := eff.transfer (Nat.pos_of_ne_zero hn)
          obtain ⟨b1, b2, -⟩ := transfer_balance (k := V) h2
          have := balance_congr (w := w) (w' := w1) (k := V) (by rw [h1 _ hM])
          rw [this] at b1 b2
          exact ⟨b2, b1⟩
    by_cases e : Q.key = P
    · rw [e] at eff
      obtain rfl := PoolAt.unique hp eff.pool
      have hM : Member env w P M.key m := ⟨eff.mining, eff.inPool⟩
      obtain ⟨c1, c2, c3, c4, c5, c6⟩ := refresh_current hgood.history eff.miningOk (hs _ _ hM).backed eff.refreshed
      have hsame := (refresh_same hgood.history eff.miningOk eff.refreshed).1
      have hmem' : Member env w' P M.key { m1 with unclaimed := 0 } := ⟨eff.mining', hsame.rewardPool.trans eff.inPool⟩
      have howed : owed { m1 with unclaimed := 0 } p.cumulative + 10 ^ 16 * n ≤ owed m p.cumulative := by
        refine Nat.le_trans (Nat.le_of_eq ?_) c2
        rw [eff.amount]
        unfold owed pending
        simp only [Nat.mul_zero, Nat.zero_add]
        exact Nat.add_comm _ _
      refine ⟨p, [(M.key, m, { m1 with unclaimed := 0 })], hpool, ⟨by simp, ?_, ?_⟩, .books rfl ?_ ?_ ?_⟩
      · intro y hy; simp at hy; subst hy
        exact ⟨hM, hmem'⟩
      · intro k y hk hy; simp at hk
        exact Or.inl (hframe k y hk hy)
      · intro _
        rw [gain_cons]; simp only [gain, List.map_nil, List.sum_nil]
        have := hbal.1
        omega
      · intro x hx
        have := c6 x hx
        rw [gain_cons]; simp only [gain, List.map_nil, List.sum_nil]
        have h2 : earningOn { m1 with unclaimed := 0 } x = earningOn m1 x := rfl
        omega
      · intro y hy; simp at hy; subst hy
        exact Or.inl ⟨⟨c1.ok.1, c1.ok.2⟩, c1.backed, c1.index, c1.later⟩
    · have hKV : V ≠ K.key := by
        rintro rfl
        exact e (hi.vault _ _ _ _ _ _ _ eff.vaultAddr hVa).1
      refine ⟨p, [], hpool, moves_nil fun k y hy => ?_, turn_same fun _ => hbal.2 hKV⟩
      by_cases e2 : k = M.key
      · subst e2
        rw [MiningAt.unique hy.1 eff.mining'] at hy
        have hsame := (refresh_same eff.good.ok.history eff.miningOk eff.refreshed).1
        exact absurd (eff.inPool.symm.trans (hsame.rewardPool.symm.trans hy.2)) e
      · exact Or.inr (Or.inl (hframe k y e2 hy))
  | @distribute Q B rest q q' r accs_eq signed auth good pool pool' amount op same ok' frame shell =>
    have hbal := Shell.balance hw (shell V)
    have hmoves : Moves env w w' P [] := moves_nil fun k y hy => by
      by_cases e2 : k = Q.key
      · subst e2; exact absurd hy.1 (PoolAt.not_mining pool')
      · exact Or.inl (frame k e2)
    by_cases e : Q.key = P
    · subst e
      obtain rfl := PoolAt.unique hp pool
      exact ⟨q', [], pool', hmoves, .distribute op hbal⟩
    · exact ⟨p, [], (poolAt_congr (frame P (Ne.symm e))).mpr hp, hmoves, turn_same fun _ => hbal⟩
  | @fill r e0 Q T K F S Kk rest q w1 accs_eq signed auth good pool vault nonzero future later endBound bound pool' w1_frame
      transfer frame neS neV shell =>
    subst accs_eq
    obtain ⟨t, t', ht, ht', -⟩ := transfer.srcTok
    obtain ⟨u, u', hu, hu', -⟩ := transfer.dstTok
    have hS : (w S.key).owner = env.tokenProgram := by rw [← w1_frame _ neS]; exact ht.1
    have hK : (w K.key).owner = env.tokenProgram := by rw [← w1_frame _ neV]; exact hu.1
    have hSV : V ≠ S.key := fun h => ho.source r e0 rfl (by rw [h]; rfl)
    have hmoves : Moves env w w' P [] := moves_nil fun k y hy => by
      by_cases e1 : k = Q.key
      · subst e1; exact absurd hy.1 (PoolAt.not_mining pool')
      by_cases e2 : k = S.key
      · subst e2; exact absurd (hy.1.1.symm.trans ht'.1) env.program_ne_token
      by_cases e3 : k = K.key
      · subst e3; exact absurd (hy.1.1.symm.trans hu'.1) env.program_ne_token
      · exact Or.inl (frame k e1 e2 e3)
    obtain ⟨b1, -, b3⟩ := transfer_balance (k := V) transfer
    have hb := Shell.balance hw (shell V)
    by_cases e : Q.key = P
    · subst e
      obtain rfl := PoolAt.unique hp pool
      refine ⟨_, [], pool', hmoves, .books rfl (fun hv' => ?_) ?_ (by simp)⟩
      · have hKV : K.key = V := vault_eq hv hp vault hK hv'
        have := b3 hKV.symm (by rw [hKV]; exact Ne.symm hSV)
        simp only [gain, List.map_nil, List.sum_nil]
        push_cast
        omega
      · intro x _; simp only [gain, List.map_nil, List.sum_nil, totalOn]; omega
    · have := b1 hSV
      exact ⟨p, [], (poolAt_congr (frame P (Ne.symm e) (tok _ _ hp.1 hS) (tok _ _ hp.1 hK))).mpr hp, hmoves,
        turn_same fun _ => by omega⟩
  | @close M O G A Q rest q m m1 accs_eq signedO signedA good pool auth mining init miningOk owner refreshed sfo paid target
      closed credited frame ne neG =>
    have hM : P ≠ M.key := by rintro rfl; exact PoolAt.not_mining hp mining
    have hG := sys _ _ hp.1 target
    refine ⟨p, [], (poolAt_congr (frame P hM hG)).mpr hp, moves_nil fun k y hy => ?_, turn_same fun _ => ?_⟩
    · by_cases e1 : k = M.key
      · subst e1
        have := hy.1.2; rw [closed] at this; cases this
      by_cases e2 : k = G.key
      · subst e2
        have := hy.1.1; rw [credited] at this
        exact absurd (this.symm.trans target) env.program_ne_system
      · exact Or.inl (frame k e1 e2)
    · by_cases e1 : V = M.key
      · rw [e1, balance_of_program hw mining.1]; exact Nat.zero_le _
      by_cases e2 : V = G.key
      · refine Nat.le_of_eq (balance_congr ?_).symm
        rw [e2, credited]
      · exact Nat.le_of_eq (balance_congr (by rw [frame V e1 e2])).symm
  | @initPool f d Q T K Y A R Kk S rest bump accs_eq signedY signedA owned len fresh notPda vault pool' vaultBefore vault'
      payer payer' frame neVP neYP neYV =>
    have hQ : P ≠ Q.key := by
      rintro rfl
      rcases fresh with h1 | ⟨m, h1, -⟩ <;> (rw [hp.2] at h1; cases h1)
    have hK := sys _ _ hp.1 vaultBefore.2.2
    have hY := sys _ _ hp.1 payer.2.1
    have hVK : V ≠ K.key := by
      rintro rfl
      exact hQ (hi.vault _ _ _ _ _ _ _ hVa (env.findVault_spec _ _ _ _ vault)).1
    refine ⟨p, [], (poolAt_congr (frame P hQ hK hY)).mpr hp, moves_nil fun k y hy => ?_, turn_same fun _ => ?_⟩
    · by_cases e1 : k = Q.key
      · subst e1; have := hy.1.2; rw [pool'] at this; cases this
      by_cases e2 : k = K.key
      · subst e2; have := hy.1.2; rw [vault'] at this; cases this
      by_cases e3 : k = Y.key
      · subst e3
        have := hy.1.1; rw [payer'] at this
        exact absurd (this.symm.trans payer.2.1) env.program_ne_system
      · exact Or.inl (frame k e1 e2 e3)
    · by_cases e1 : V = Q.key
      · rw [e1, balance_of_program hw owned]; exact Nat.zero_le _
      by_cases e3 : V = Y.key
      · refine Nat.le_of_eq (balance_congr ?_).symm
        rw [e3, payer']
      · exact Nat.le_of_eq (balance_congr (by rw [frame V e1 hVK e3])).symm
  | @initMining o Q M Y S rest bump accs_eq signedY owned addr before mining' payer payer' frame ne neP =>
    have hM := sys _ _ hp.1 before.2.2
    have hY := sys _ _ hp.1 payer.2.1
    have hVM : V ≠ M.key := by
      rintro rfl
      exact hi.disjoint _ _ _ _ _ _ _ (env.findMining_spec _ _ _ _ addr) hVa
    refine ⟨p, [], (poolAt_congr (frame P hM hY)).mpr hp, moves_nil fun k y hy => ?_, turn_same fun _ => ?_⟩
    · by_cases e2 : k = M.key
      · subst e2
        have := hy.1.2; rw [mining'] at this
        cases this
        exact Or.inr (Or.inr ⟨rfl, rfl, rfl, rfl, rfl⟩)
      by_cases e3 : k = Y.key
      · subst e3
        have := hy.1.1; rw [payer'] at this
        exact absurd (this.symm.trans payer.2.1) env.program_ne_system
      · exact Or.inl (frame k e2 e3)
    · by_cases e3 : V = Y.key
      · refine Nat.le_of_eq (balance_congr ?_).symm
        rw [e3, payer']
      · exact Nat.le_of_eq (balance_congr (by rw [frame V hVM e3])).symm

end Verif
