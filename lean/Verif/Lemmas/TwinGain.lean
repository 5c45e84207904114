import Verif.Lemmas.TwinRun
/-!
More rewards in one of two histories: what the minings get.
-/

namespace Verif

open Spec

variable {env : Env}

theorem idx_zero (c : SMap) : idx c 0 = 0 := rfl

theorem idx_length (c : SMap) : idx c c.length = lastIndex 0 c := by unfold idx; rw [List.take_length]

theorem idx_append {c d : SMap} {a : Nat} (h : a ≤ c.length) : idx (c ++ d) a = idx c a := by
  unfold idx; rw [List.take_append_of_le_length h]

theorem idx_snoc (c : SMap) (d x : Nat) : idx (c ++ [(d, x)]) (c.length + 1) = x := by
  unfold idx
  rw [List.take_of_length_le (by simp), lastIndex_append]
  rfl

theorem dom_length {c c' : SMap} (h : Dom c c') : c.length = c'.length := by
  have := congrArg List.length h.1
  simpa using this

theorem dom_nil : Dom [] [] := by
  refine ⟨rfl, ?_⟩
  intro a b _ _
  simp [idx, lastIndex]

/-- A further distribution. -/
theorem Dom.snoc {c c' : SMap} (h : Dom c c') {d x x' : Nat} (hx : x + idx c' c'.length ≤ x' + idx c c.length) :
    Dom (c ++ [(d, x)]) (c' ++ [(d, x')]) := by
  have hl := dom_length h
  refine ⟨by simp [h.1], ?_⟩
  intro a b hab hb
  rw [List.length_append, List.length_singleton] at hb
  by_cases hb' : b ≤ c.length
  · rw [idx_append hb', idx_append (by omega : a ≤ c.length), idx_append (by omega : a ≤ c'.length),
      idx_append (by omega : b ≤ c'.length)]
    exact h.2 a b hab hb'
  · have hbe : b = c.length + 1 := by omega
    subst hbe
    by_cases ha : a ≤ c.length
    · have h1 := idx_snoc c d x
      have h2 := idx_snoc c' d x'
      rw [← hl] at h2
      rw [h1, h2, idx_append ha, idx_append (by omega : a ≤ c'.length)]
      have := h.2 a c.length ha (Nat.le_refl _)
      rw [← hl] at hx
      omega
    · have hae : a = c.length + 1 := by omega
      subst hae
      omega

theorem Sync.append {c c' : SMap} (hl : c.length = c'.length) {i i' : Nat} (h : Sync c c' i i') (d d' : SMap) :
    Sync (c ++ d) (c' ++ d') i i' := by
  obtain ⟨a, ha, h1, h2⟩ := h
  refine ⟨a, by rw [List.length_append]; omega, ?_, ?_⟩
  · rw [idx_append ha]; exact h1
  · rw [idx_append (by omega)]; exact h2

/-- What is still to be credited. -/
theorem pending_pair {c c' : SMap} (hc : History c) (hc' : History c') (hd : Dom c c') {m n : Mining}
    (hmn : SameStake m n) (hs : Sync c c' m.index n.index) : pending m c ≤ pending n c' := by
  obtain ⟨u, i, rfl⟩ : ∃ u i, n = { m with unclaimed := u, index := i } := ⟨_, _, hmn⟩
  obtain ⟨a, ha, h1, h2⟩ := hs
  simp only at h2
  have hl := dom_length hd
  have key : ∀ b, b ≤ c.length → earned (earningOn m) m.index 0 (c.take b) ≤ earned (earningOn m) i 0 (c'.take b) := by
    intro b
    induction b with
    | zero => intro _; simp [earned]
    | succ b ih =>
      intro hb
      have hb1 : b < c.length := by omega
      have hb2 : b < c'.length := by omega
      have e1 : c.take (b + 1) = c.take b ++ [c[b]] := (List.take_append_getElem hb1).symm
      have e2 : c'.take (b + 1) = c'.take b ++ [c'[b]] := (List.take_append_getElem hb2).symm
      have f1 : idx c (b + 1) = c[b].2 := by unfold idx; rw [e1, lastIndex_append]; rfl
      have f2 : idx c' (b + 1) = c'[b].2 := by unfold idx; rw [e2, lastIndex_append]; rfl
      have g : c[b].1 = c'[b].1 := by
        have h3 := congrArg (fun l => l[b]?) hd.1
        simpa [hb1, hb2] using h3
      have k1 : earned (earningOn m) m.index (idx c b) [c[b]] ≤ earned (earningOn m) i (idx c' b) [c'[b]] := by
        have d1 : earned (earningOn m) m.index (idx c b) [c[b]] =
            (max c[b].2 m.index - max (idx c b) m.index) * earningOn m c[b].1 := by
          generalize c[b] = z; obtain ⟨z1, z2⟩ := z; simp [earned]
        have d2 : earned (earningOn m) i (idx c' b) [c'[b]] =
            (max c'[b].2 i - max (idx c' b) i) * earningOn m c'[b].1 := by
          generalize c'[b] = z; obtain ⟨z1, z2⟩ := z; simp [earned]
        rw [d1, d2, ← g, ← f1, ← f2, h1, h2]
        refine Nat.mul_le_mul_right _ ?_
        rcases Nat.lt_or_ge b a with hlt | hge
        · have j1 := idx_mono hc (show b + 1 ≤ a by omega)
          omega
        · have j1 := idx_mono hc hge
          have j2 := idx_mono hc' hge
          have j3 := idx_mono hc (show a ≤ b + 1 by omega)
          have j4 := idx_mono hc' (show a ≤ b + 1 by omega)
          have j5 := hd.2 b (b + 1) (by omega) hb
          omega
      rw [e1, e2, earned_append, earned_append]
      have := ih (by omega)
      simp only [idx] at k1
      omega
  have h3 := key c.length (Nat.le_refl _)
  rw [List.take_length, hl, List.take_length] at h3
  exact h3

theorem daily_mono {t t' ends now : Nat} (h : t ≤ t') :
    dailyAmount t ends now ≤ dailyAmount t' ends now ∧
    t - dailyAmount t ends now ≤ t' - dailyAmount t' ends now ∧ dailyAmount t' ends now ≤ t' := by
  unfold dailyAmount
  split
  · exact ⟨h, by omega, Nat.le_refl _⟩
  · generalize hd : (ends - now) / 86400 = d
    have hd0 : 0 < d := by omega
    have h1 : t / d ≤ t' / d := Nat.div_le_div_right h
    have h2 : t' / d ≤ t / d + (t' - t) := by
      have : t' ≤ t + d * (t' - t) := by
        have := Nat.mul_le_mul_right (t' - t) hd0
        omega
      refine Nat.le_trans (Nat.div_le_div_right this) ?_
      rw [Nat.add_mul_div_left _ _ hd0]
      exact Nat.le_refl _
    have h3 := Nat.div_le_self t d
    have h4 := Nat.div_le_self t' d
    exact ⟨h1, by omega, h4⟩

/-- The comparison between the two histories; `x k` and `y k` have been paid to the mining at `k`. -/
structure Better (env : Env) (P : Key) (s t : Chain) (x y : Key → Nat) : Prop where
  tied : Tied env s.world t.world
  dom : ∀ c c', HistAt env s.world P c → HistAt env t.world P c' → Dom c c'
  budget : ∀ p q, PoolAt env s.world P p → PoolAt env t.world P q →
    p.tokensAvailable ≤ q.tokensAvailable ∧ p.distributionEndsAt = q.distributionEndsAt
  members : ∀ k m n, MiningAt env s.world k m → m.accountType = 2 → m.rewardPool = P → MiningAt env t.world k n →
    (∀ c c', HistAt env s.world P c → HistAt env t.world P c' → Sync c c' m.index n.index) ∧
      x k + m.unclaimed ≤ y k + n.unclaimed
  others : ∀ k, (∀ m, MiningAt env s.world k m → m.accountType = 2 → m.rewardPool ≠ P) → x k ≤ y k

theorem histAt_congr {w w' : World} {k : Key} {c : SMap} (h : ∀ p, PoolAt env w' k p ↔ PoolAt env w k p) :
    HistAt env w' k c ↔ HistAt env w k c := by
  unfold HistAt
  simp only [h]

theorem HistAt.history {now : Nat} {w : World} (hw : Wf env now w) {k : Key} {c : SMap} (h : HistAt env w k c) : History c := by
  rcases h with ⟨p, hp, rfl⟩ | ⟨-, rfl⟩
  · exact (poolAt_good hw hp).ok.history
  · exact ⟨.nil, .nil, by simp⟩

/-- What changes in the pool at `P` in two histories. -/
theorem pools_change {s t : Chain} {accs : List AccountInfo} {i i' : Ix} {r r' : Option Nat} {v' w' : World} {P : Key}
    (hnow : s.now = t.now) (hs : Reachable env s) (ht : Reachable env t) (hws : Wf env s.now s.world)
    (hwt : Wf env s.now t.world)
    (hii : i = i' ∨ ∃ f f' x, i = .fillVault f x ∧ i' = .fillVault f' x ∧ f ≤ f')
    (h1 : Step env s.now s.world v' accs i r) (h2 : Step env s.now t.world w' accs i' r') {p p' q q' : Pool}
    (hp : PoolAt env s.world P p) (hq : PoolAt env t.world P q) (hpq : SameStakes p q) (hp' : PoolAt env v' P p')
    (hq' : PoolAt env w' P q') (hd : Dom p.cumulative q.cumulative)
    (hb : p.tokensAvailable ≤ q.tokensAvailable ∧ p.distributionEndsAt = q.distributionEndsAt) :
    ∃ a a', p'.cumulative = p.cumulative ++ a ∧ q'.cumulative = q.cumulative ++ a' ∧ Dom p'.cumulative q'.cumulative ∧
      p'.tokensAvailable ≤ q'.tokensAvailable ∧ p'.distributionEndsAt = q'.distributionEndsAt := by
  obtain ⟨p2, a1, a2, -⟩ := h1.pool hp
  obtain rfl := PoolAt.unique hp' a1
  obtain ⟨q2, b1, b2, -⟩ := h2.pool hq
  obtain rfl := PoolAt.unique hq' b1
  have okp := (poolAt_good hws hp).ok
  have okq := (poolAt_good hwt hq).ok
  have quiet : p'.cumulative = p.cumulative → q'.cumulative = q.cumulative →
      p'.tokensAvailable ≤ q'.tokensAvailable ∧ p'.distributionEndsAt = q'.distributionEndsAt →
      ∃ a a', p'.cumulative = p.cumulative ++ a ∧ q'.cumulative = q.cumulative ++ a' ∧ Dom p'.cumulative q'.cumulative ∧
        p'.tokensAvailable ≤ q'.tokensAvailable ∧ p'.distributionEndsAt = q'.distributionEndsAt := by
    intro e1 e2 e3
    exact ⟨[], [], by simpa using e1, by simpa using e2, by rw [e1, e2]; exact hd, e3⟩
  cases a2 with
  | same other =>
    cases b2 with
    | same => exact quiet rfl rfl hb
    | stake hi q2 => exact quiet rfl q2.cumulative (by rw [q2.avail, q2.ends]; exact hb)
    | distribute acc =>
      rcases hii with rfl | ⟨f, f', x, rfl, h, -⟩
      · exact absurd acc (other rfl)
      · cases h
    | fill acc =>
      rcases hii with rfl | ⟨f, f', x, rfl, h, -⟩
      · exact absurd acc (other rfl)
      · exact absurd acc (other rfl)
  | stake hi q1 =>
    cases b2 with
    | same => exact quiet q1.cumulative rfl (by rw [q1.avail, q1.ends]; exact hb)
    | stake hi q2 =>
      exact quiet q1.cumulative q2.cumulative
        (by rw [q1.avail, q1.ends, q2.avail, q2.ends]; exact hb)
    | distribute acc =>
      rcases hii with rfl | ⟨f, f', x, rfl, h, -⟩
      · cases hi
      · cases h
    | fill acc =>
      rcases hii with rfl | ⟨f, f', x, rfl, h, -⟩
      · cases hi
      · cases hi
  | fill acc =>
    cases b2 with
    | same other =>
      rcases hii with rfl | ⟨f, f', x, h, rfl, -⟩
      · exact absurd acc (other rfl)
      · exact absurd acc (other rfl)
    | stake hi =>
      rcases hii with rfl | ⟨f, f', x, h, rfl, -⟩
      · cases hi
      · cases hi
    | distribute =>
      rcases hii with h | ⟨f, f', x, h, h', -⟩
      · cases h
      · cases h'
    | fill =>
      rcases hii with h | ⟨f, f', x, h, h', hle⟩
      · cases h
        refine quiet rfl rfl ⟨?_, rfl⟩
        simp only
        omega
      · cases h; cases h'
        refine quiet rfl rfl ⟨?_, rfl⟩
        simp only
        omega
  | distribute acc _ am1 op1 =>
    obtain rfl : i' = .distributeRewards := by
      rcases hii with h | ⟨f, f', x, h, h', hle⟩
      · exact h.symm
      · cases h
    cases b2 with
    | same other => exact absurd acc (other rfl)
    | stake hi => cases hi
    | distribute _ _ am2 op2 =>
      have e1 := rewardsToDistribute_ok am1
      have e2 := rewardsToDistribute_ok am2
      rw [← hb.2] at e2
      obtain ⟨m1, m2, m3⟩ := daily_mono (ends := p.distributionEndsAt) (now := s.now) hb.1
      rw [← e1, ← e2] at m1 m2
      have hlen := dom_length hd
      have hT : totalOn q (midnight s.now) = totalOn p (midnight s.now) := by
        rw [hpq]; rfl
      by_cases hn : NewDay p s.now
      · have hn' : NewDay q s.now := by
          intro e he
          have : e.1 ∈ q.cumulative.map (·.1) := List.mem_map.mpr ⟨e, he, rfl⟩
          rw [← hd.1] at this
          obtain ⟨y, hy, hy'⟩ := List.mem_map.mp this
          rw [← hy']; exact hn y hy
        obtain ⟨T, t1, t2, t3, t4, rfl⟩ := distribute_new okp hn op1
        obtain ⟨T', t1', t2', t3', t4', rfl⟩ := distribute_new okq hn' op2
        obtain rfl : T = T' := by rw [hT, t1] at t1'; exact Int.ofNat.inj t1'
        by_cases hroom : p.cumulative.length < env.caps.index
        · have hroom' : q.cumulative.length < env.caps.index := by rw [← hlen]; exact hroom
          have i1 := index_recorded hs hp hroom
          have i2 := index_recorded ht hq hroom'
          simp only [if_pos hroom, if_pos hroom']
          refine ⟨_, _, rfl, rfl, hd.snoc ?_, m2, hb.2⟩
          rw [idx_length, idx_length, ← i1, ← i2]
          have := Nat.div_le_div_right (c := T) (Nat.mul_le_mul_left (10 ^ 16) m1)
          omega
        · have hroom' : ¬ q.cumulative.length < env.caps.index := by rw [← hlen]; exact hroom
          refine quiet ?_ ?_ ⟨m2, hb.2⟩
          · simp only [if_neg hroom]
          · simp only [if_neg hroom']
      · have hn' : ¬ NewDay q s.now := by
          intro h
          refine hn fun e he => ?_
          have : e.1 ∈ p.cumulative.map (·.1) := List.mem_map.mpr ⟨e, he, rfl⟩
          rw [hd.1] at this
          obtain ⟨y, hy, hy'⟩ := List.mem_map.mp this
          rw [← hy']; exact h y hy
        obtain ⟨T, -, rfl⟩ := distribute_again okp hn op1
        obtain ⟨T', -, rfl⟩ := distribute_again okq hn' op2
        exact quiet rfl rfl hb

/-- Closing a mining in both histories. -/
theorem Tied.closing {now : Nat} {v v' w w' : World} {accs : List AccountInfo} {r r' : Option Nat} {P k : Key}
    (ht : Tied env v w) (h1 : Step env now v v' accs .closeMining r) (h2 : Step env now w w' accs .closeMining r')
    (hh : HonestArgs env v accs .closeMining) (hk : accs[0]?.map (·.key) = some k) {m n : Mining} (hm : MiningAt env v k m)
    (hP : m.rewardPool = P) (hn : MiningAt env w k n) (hmn : SameStake m n) {c c' : SMap} (hc : HistAt env v P c)
    (hc' : HistAt env w P c') (hd : Dom c c') (hs : Sync c c' m.index n.index) : n.unclaimed ≤ m.unclaimed := by
  cases h1 with
  | stake _ op => exact op.elim
  | @close M O G A Q rest p m1 m2 accs_eq signedO signedA good pool auth mining init miningOk owner refreshed sfo paid target
        closed credited frame ne neG =>
    cases h2 with
    | stake accs_eq2 op2 => exact op2.elim
    | @close M2 O2 G2 A2 P2 rest2 p2 n1 n2 accs_eq2 signedO2 signedA2 good2 pool2 auth2 mining2 init2 miningOk2 owner2 refreshed2
          sfo2 paid2 target2 closed2 credited2 frame2 ne2 neG2 =>
      rw [accs_eq] at accs_eq2; cases accs_eq2
      have hQ := hh M Q m1 (by rw [accs_eq]; rfl) (by rw [accs_eq]; rfl) mining
      rw [accs_eq] at hk; cases hk
      obtain rfl := MiningAt.unique hm mining
      obtain rfl := MiningAt.unique hn mining2
      rw [hP] at hQ; subst hQ
      obtain rfl := hc.eq pool
      obtain rfl := hc'.eq pool2
      obtain ⟨-, z⟩ := refresh_pair good.ok.history good2.ok.history miningOk hmn refreshed refreshed2
      have := (z hd hs).2
      omega

theorem largerFill_other {e e' : Event} (h : LargerFill e e') : OtherFill e e' := by
  rcases h with h | ⟨accs, r, r', t, h1, h2, -⟩
  · exact Or.inl h
  · exact Or.inr ⟨accs, r, t, r', t, h1, h2⟩

theorem largerFill_ix {accs : List AccountInfo} {i i' : Ix} (h : LargerFill (.ix accs i) (.ix accs i')) :
    i = i' ∨ ∃ f f' x, i = .fillVault f x ∧ i' = .fillVault f' x ∧ f ≤ f' := by
  rcases h with (h | ⟨w, w', h, -⟩) | ⟨_, r, r', t, h1, h2, h3⟩
  · cases h; exact Or.inl rfl
  · cases h
  · cases h1; cases h2; exact Or.inr ⟨r, r', t, rfl, rfl, h3⟩

/-- Payments of a pool to a mining that is not one of its minings: none. -/
theorem Step.notPaid {now : Nat} {w w' : World} {accs : List AccountInfo} {i : Ix} {r : Option Nat}
    (h : Step env now w w' accs i r) {P k : Key}
    (hn : ∀ m, MiningAt env w k m → m.accountType = 2 → m.rewardPool ≠ P) (hf : FirstIs accs P) : claimedOut accs k i r = 0 := by
  cases h with
  | @claim Q T V M O A U K rest p m1 m2 n accs_eq signedO signedA eff =>
    simp only [claimedOut]
    split
    · rename_i hk
      rw [accs_eq] at hk hf
      have hk : some M.key = some k := hk
      cases hk
      have hf : some Q.key = some P := hf
      cases hf
      exact absurd eff.inPool (hn _ eff.mining eff.init.type)
    · rfl
  | stake _ op => exact claimedOut_other (by rintro rfl; exact op.elim)
  | _ => rfl

theorem claimedFrom_ix {P k : Key} {s : Chain} {accs : List AccountInfo} {i : Ix} {x : Nat}
    (h : claimedBy env k s (.ix accs i) = x) : claimedFrom env P k s (.ix accs i) = if FirstIs accs P then x else 0 := by
  simp only [claimedFrom, h]

theorem claimedFrom_zero {P k : Key} {s : Chain} {e : Event} (h : claimedBy env k s e = 0) : claimedFrom env P k s e = 0 := by
  cases e with
  | ix accs i => simp only [claimedFrom, h, ite_self]
  | _ => rfl

/-- A member is paid by its own pool only. -/
theorem Step.paidFrom {now : Nat} {w w' : World} {accs : List AccountInfo} {i : Ix} {r : Option Nat}
    (h : Step env now w w' accs i r) {P k : Key} {m : Mining} (hm : MiningAt env w k m) (hP : m.rewardPool = P) :
    (if FirstIs accs P then claimedOut accs k i r else 0) = claimedOut accs k i r := by
  split
  · rfl
  · rename_i hf
    cases h with
    | @claim Q T V M O A U K rest p m1 m2 n accs_eq signedO signedA eff =>
      simp only [claimedOut]
      split
      · rename_i hk
        rw [accs_eq] at hk hf
        have hk : some M.key = some k := hk
        cases hk
        obtain rfl := MiningAt.unique hm eff.mining
        exact absurd (show some Q.key = some P by rw [← eff.inPool, hP]) hf
      · rfl
    | stake _ op => exact (claimedOut_other (by rintro rfl; exact op.elim)).symm
    | _ => rfl

/-- One event. -/
theorem Better.both (hinj : env.PdaInjective) {P : Key} {s t : Chain} {x y : Key → Nat} {e e' : Event}
    (h : Better env P s t x y) (hnow : s.now = t.now) (hs : Reachable env s) (ht : Reachable env t)
    (hws : Wf env s.now s.world) (hwt : Wf env t.now t.world) (hst : Straight env P s e) (hst' : Straight env P t e')
    (hee : LargerFill e e') (hb : Both env s t e e') :
    Better env P (s.apply env e) (t.apply env e') (fun k => x k + claimedFrom env P k s e)
      (fun k => y k + claimedFrom env P k t e') := by
  have htied := h.tied.both hnow hws hwt hb
  cases hb with
  | idle X left right paid paid' removed removed' =>
    have hX : ¬ X P := by
      intro hX
      have h1 := hst.2
      rw [removed P hX] at h1
      exact h1.1 rfl
    have hp : ∀ p, PoolAt env (s.apply env e).world P p ↔ PoolAt env s.world P p := fun p =>
      (left.pool P p).trans (by simp [hX])
    have hq : ∀ p, PoolAt env (t.apply env e').world P p ↔ PoolAt env t.world P p := fun p =>
      (right.pool P p).trans (by simp [hX])
    refine ⟨htied, ?_, ?_, ?_, ?_⟩
    · intro c c' hc hc'
      exact h.dom c c' ((histAt_congr hp).mp hc) ((histAt_congr hq).mp hc')
    · intro p q h1 h2
      exact h.budget p q ((hp p).mp h1) ((hq q).mp h2)
    · intro k m n hm hty hP hn
      obtain ⟨m1, m2⟩ := h.members k m n ((left.mining k m).mp hm).1 hty hP ((right.mining k n).mp hn).1
      refine ⟨fun c c' hc hc' => m1 c c' ((histAt_congr hp).mp hc) ((histAt_congr hq).mp hc'), ?_⟩
      simp only [claimedFrom_zero (paid k), claimedFrom_zero (paid' k)]
      exact m2
    · intro k hk
      simp only [claimedFrom_zero (paid k), claimedFrom_zero (paid' k)]
      refine h.others k fun m hm hty hP => ?_
      by_cases hXk : X k
      · have h1 := hst.2
        rw [removed k hXk] at h1
        exact h1.2 m ⟨hm, hP⟩
      · exact hk m ((left.mining k m).mpr ⟨hm, hXk⟩) hty hP
  | @ix accs i i' r r' eq eq' pair left right paid paid' =>
    subst eq; subst eq'
    have hwt' : Wf env s.now t.world := by rw [hnow]; exact hwt
    have hix := largerFill_ix hee
    have hone : HonestArgs env s.world accs i := hst.2
    have hpaid : ∀ k, claimedFrom env P k s (.ix accs i) = if FirstIs accs P then claimedOut accs k i r else 0 :=
      fun k => claimedFrom_ix (paid k)
    have hpaid' : ∀ k, claimedFrom env P k t (.ix accs i') = if FirstIs accs P then claimedOut accs k i' r' else 0 :=
      fun k => claimedFrom_ix (paid' k)
    have hpools : ∀ c c', HistAt env s.world P c → HistAt env t.world P c' → ∀ d d',
        HistAt env (s.apply env (.ix accs i)).world P d → HistAt env (t.apply env (.ix accs i')).world P d' →
        Dom d d' ∧ ∃ a a', d = c ++ a ∧ d' = c' ++ a' := by
      intro c c' hc hc' d d' hd hd'
      have hdom := h.dom c c' hc hc'
      by_cases hex : ∃ p, PoolAt env s.world P p
      · obtain ⟨p, hp⟩ := hex
        obtain ⟨q, hq, hpq⟩ := h.tied.pools P p hp
        obtain ⟨p', hp', -⟩ := left.pool hp
        obtain ⟨q', hq', -⟩ := right.pool hq
        obtain rfl := hc.eq hp
        obtain rfl := hc'.eq hq
        obtain rfl := hd.eq hp'
        obtain rfl := hd'.eq hq'
        obtain ⟨a, a', e1, e2, e3, -⟩ := pools_change hnow hs ht hws hwt' hix left right hp hq hpq hp' hq' hdom
          (h.budget p q hp hq)
        exact ⟨e3, a, a', e1, e2⟩
      · have hc0 : c = [] := by
          rcases hc with ⟨p, hp, -⟩ | ⟨-, h0⟩
          · exact absurd ⟨p, hp⟩ hex
          · exact h0
        have hc0' : c' = [] := by
          rcases hc' with ⟨p, hp, -⟩ | ⟨-, h0⟩
          · exact absurd (h.tied.poolsBack P p hp) hex
          · exact h0
        subst hc0; subst hc0'
        have key : d = [] ∧ d' = [] := by
          rcases hd with ⟨p', hp', rfl⟩ | ⟨hno, rfl⟩
          · rcases left.newPool hp' with hh | ⟨f, dd, Q, T, V, Y, A, rest, bump, rfl, e2, rfl, -⟩
            · exact absurd hh hex
            · obtain rfl := pair.eq (by intro _ _ h; cases h)
              obtain ⟨p, a1, a2, -, -, a5, -⟩ := left.founded right (first_eq e2)
              rw [PoolAt.unique hp' a1, hd'.eq a2]
              exact ⟨a5, a5⟩
          · rcases hd' with ⟨q', hq', -⟩ | ⟨-, rfl⟩
            · obtain ⟨p', hp'⟩ := htied.poolsBack P q' hq'
              exact absurd hp' (hno p')
            · exact ⟨rfl, rfl⟩
        obtain ⟨rfl, rfl⟩ := key
        exact ⟨dom_nil, [], [], rfl, rfl⟩
    obtain ⟨c0, hc0⟩ := HistAt.exists (env := env) s.world P
    obtain ⟨c0', hc0'⟩ := HistAt.exists (env := env) t.world P
    have hdom0 := h.dom c0 c0' hc0 hc0'
    refine ⟨htied, ?_, ?_, ?_, ?_⟩
    · intro d d' hd hd'
      exact (hpools c0 c0' hc0 hc0' d d' hd hd').1
    · intro p' q' hp' hq'
      rcases left.newPool hp' with ⟨p, hp⟩ | ⟨f, dd, Q, T, V, Y, A, rest, bump, rfl, e2, rfl, -⟩
      · obtain ⟨q, hq, hpq⟩ := h.tied.pools P p hp
        obtain ⟨a, a', -, -, -, e3⟩ := pools_change hnow hs ht hws hwt' hix left right hp hq hpq hp' hq'
          (h.dom _ _ (Or.inl ⟨p, hp, rfl⟩) (Or.inl ⟨q, hq, rfl⟩)) (h.budget p q hp hq)
        exact e3
      · obtain rfl := pair.eq (by intro _ _ h; cases h)
        obtain ⟨p, a1, a2, -, -, -, a5, a6⟩ := left.founded right (first_eq e2)
        obtain rfl := PoolAt.unique hp' a1
        obtain rfl := PoolAt.unique hq' a2
        exact ⟨Nat.le_refl _, rfl⟩
    · intro k m' n' hm' hty hP hn'
      rcases left.miningBack hm' hty with ⟨m, hm, hsm⟩ | ⟨o, Q, M, Y, rest, bump, rfl, rfl, rfl, hf, rfl, hno⟩
      · have h0 : m.accountType = 2 := hsm.accountType.symm.trans hty
        have hPm : m.rewardPool = P := hsm.rewardPool.symm.trans hP
        obtain ⟨n, hn, hmn⟩ := h.tied.minings k m hm h0
        obtain ⟨g1, g2⟩ := h.members k m n hm h0 hPm hn
        obtain ⟨-, g⟩ := h.tied.mining pair left right hm h0 hn hmn hm' hn'
        have g := g hinj hone c0 c0' (by rw [hPm]; exact hc0) (by rw [hPm]; exact hc0') hdom0 (g1 _ _ hc0 hc0')
        refine ⟨fun d d' hd hd' => ?_, ?_⟩
        · obtain ⟨-, a, a', rfl, rfl⟩ := hpools c0 c0' hc0 hc0' d d' hd hd'
          exact g.1.append (dom_length hdom0) a a'
        · have e1 := left.paidFrom hm hPm
          have e2 := right.paidFrom hn (hmn.pool.trans hPm)
          simp only [hpaid, hpaid', e1, e2]
          have := g.2
          omega
      · obtain rfl := pair.eq (by intro _ _ h; cases h)
        obtain rfl := MiningAt.unique hn' (right.created hf)
        refine ⟨fun d d' hd hd' => ⟨0, Nat.zero_le _, (idx_zero _).symm, (idx_zero _).symm⟩, ?_⟩
        simp only [hpaid, hpaid', claimedOut, ite_self]
        exact h.others _ fun m hm => absurd hm (hno m)
    · intro k hk
      by_cases hmem : ∃ m, MiningAt env s.world k m ∧ m.accountType = 2 ∧ m.rewardPool = P
      · obtain ⟨m, hm, h0, hPm⟩ := hmem
        obtain ⟨n, hn, hmn⟩ := h.tied.minings k m hm h0
        obtain ⟨g1, g2⟩ := h.members k m n hm h0 hPm hn
        rcases left.miningOn hm h0 with ⟨m', hm', hsm⟩ | ⟨rfl, e2, -⟩
        · exact absurd (hsm.rewardPool.trans hPm) (hk m' hm' (hsm.accountType.trans h0))
        · obtain rfl := pair.eq (by intro _ _ h; cases h)
          have := h.tied.closing left right hone e2 hm hPm hn hmn hc0 hc0' hdom0 (g1 _ _ hc0 hc0')
          simp only [hpaid, hpaid', claimedOut, ite_self]
          omega
      · have h1 := h.others k fun m hm h0 hP => hmem ⟨m, hm, h0, hP⟩
        simp only [hpaid, hpaid']
        split
        · rename_i hf
          rw [left.notPaid (fun m hm h0 hP => hmem ⟨m, hm, h0, hP⟩) hf]
          omega
        · omega

/-- The whole of two histories. -/
theorem runs_better (hinj : env.PdaInjective) {P : Key} {es es' : List Event} {s t s' t' : Chain} {x y : Key → Nat}
    (h1 : RunsWith env (Straight env P) s es s') (h2 : RunsWith env (Straight env P) t es' t')
    (hal : Alike env LargerFill s t es es') (hnow : s.now = t.now) (hs : Reachable env s) (ht : Reachable env t)
    (h : Better env P s t x y) : Reachable env s' ∧ Reachable env t' ∧ 
    Better env P s' t' (fun k => x k + totalIn env (claimedFrom env P k) s es)
      (fun k => y k + totalIn env (claimedFrom env P k) t es') := by
  induction es generalizing s t es' x y with
  | nil =>
    cases es' with
    | nil => cases h1; cases h2; exact ⟨hs, ht, h⟩
    | cons => exact hal.elim
  | cons e es ih =>
    cases es' with
    | nil => exact hal.elim
    | cons e' es' =>
      cases h1 with | cons hv1 hc1 h1 =>
      cases h2 with | cons hv2 hc2 h2 =>
      obtain ⟨hee, hgo, hal⟩ := hal
      have hws := reachable_wf hs
      have hwt := reachable_wf ht
      obtain ⟨hb, hn⟩ := both_of hnow hws hwt hv1 hv2 hc1.1 hc2.1 (largerFill_other hee) hgo
      obtain ⟨r1, r2, r3⟩ := ih h1 h2 hal hn (hs.step hv1 hc1.1) (ht.step hv2 hc2.1)
        (h.both hinj hnow hs ht hws hwt hc1 hc2 hee hb)
      refine ⟨r1, r2, ?_⟩
      simp only [totalIn, ← Nat.add_assoc]
      exact r3

theorem better_genesis {P : Key} {s t : Chain} (hs : Genesis env s) (ht : Genesis env t) :
    Better env P s t (fun _ => 0) (fun _ => 0) := by
  have np : ∀ {s : Chain}, Genesis env s → ∀ k p, ¬ PoolAt env s.world k p := by
    intro s hg k p hp
    have := (hg.owned k hp.1).1
    rw [hp.2] at this; cases this
  have nm : ∀ {s : Chain}, Genesis env s → ∀ k p, ¬ MiningAt env s.world k p := by
    intro s hg k p hp
    have := (hg.owned k hp.1).1
    rw [hp.2] at this; cases this
  refine ⟨tied_genesis hs ht, ?_, fun p q h => absurd h (np hs P p), fun k m n h => absurd h (nm hs k m), fun _ _ => Nat.le_refl _⟩
  rintro c c' (⟨p, hp, -⟩ | ⟨-, rfl⟩) (⟨q, hq, -⟩ | ⟨-, rfl⟩)
  · exact absurd hp (np hs P p)
  · exact absurd hp (np hs P p)
  · exact absurd hq (np ht P q)
  · exact dom_nil

end Verif
