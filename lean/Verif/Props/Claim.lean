import Verif.Lemmas.Transfer
import Verif.Lemmas.DemoExec
/-!
Claim: exact payment (C01), paying once (C02), paying only the owner (C03).
-/

namespace Verif

open Spec

variable {env : Env}

/-- C01. A successful Claim, in any well-formed state: with `c` the whole tokens of the mining's entitlement from the
distributions visible now (short of the exact value by less than one token per expired lock date plus one), the amount
`unclaimed + c` is returned and moved from the vault to the receiving token account; the mining is left up to date with
nothing unclaimed; the pool and every other account are unchanged. -/
theorem C01_claim_exact {now : Nat} {w w' : World} {accs : List AccountInfo} {ret : Option Nat} (hw : Wf env now w)
    (hs : RealSigners accs) (hc : NotPoolAsMining env w accs .claim)
    (h : exec env now w accs .claim = .ok (w', ret)) :
    ∃ P T V M O A U rest p m c, accs = P :: T :: V :: M :: O :: A :: U :: rest ∧
      PoolAt env w P.key p ∧ MiningAt env w M.key m ∧
      10 ^ 16 * c ≤ entitlement m p.cumulative now ∧
      entitlement m p.cumulative now < 10 ^ 16 * (c + expiredCount m (midnight now) + 1) ∧
      ret = some (m.unclaimed + c) ∧ TokensMoved w w' V.key U.key (m.unclaimed + c) ∧
      dueBy m.diffs (midnight now) ≤ m.share ∧
      MiningAt env w' M.key { m with index := indexBefore p.cumulative now
                                     share := m.share - dueBy m.diffs (midnight now)
                                     unclaimed := 0
                                     diffs := laterThan m.diffs (midnight now) } ∧
      w' P.key = w P.key ∧ ∀ k, k ≠ M.key → k ≠ V.key → k ≠ U.key → w' k = w k := by
  rw [exec_ok] at h
  obtain ⟨h, -⟩ := h
  simp only [process, res_bind_ok, res_pure_ok, Prod.mk.injEq, Prod.exists] at h
  obtain ⟨w1, n, h, rfl, rfl⟩ := h
  obtain ⟨P, T, V, M, O, A, U, K, rest, p, m, m1, rfl, h1, h2, he⟩ := claim_world hw hs hc h
  obtain ⟨c, rfl, g1, g2, g3, g4, g5, g6⟩ := refresh_ok he.good.ok.history he.miningOk.sorted he.refreshed
  rw [bod_eq_midnight] at *
  have hn : n = m.unclaimed + c := he.amount
  subst hn
  have hPV : P.key ≠ V.key := by
    intro e; have := he.pool.1; rw [e, he.vaultTok] at this; exact env.program_ne_token this.symm
  have hPU : P.key ≠ U.key := by
    obtain ⟨t, ht, _⟩ := he.userTok
    intro e; have := he.pool.1; rw [e, ht.1] at this; exact env.program_ne_token this.symm
  exact ⟨P, T, V, M, O, A, U, _, p, m, c, rfl, he.pool, he.mining, g5, g6, rfl, he.moved, g1, he.mining',
    he.frame _ (Ne.symm he.ne) hPV hPU, he.frame⟩

/-- C02. After a successful Claim from mining `M` of pool `P`: a second Claim from `M` in any later well-formed state
`w2`, in which the mining has not been credited anything (its index and unclaimed amount are as the first Claim left
them; its stake may have changed) and the distributions visible at `now2` are those visible at the first Claim, returns 0
and changes no account but the mining. -/
theorem C02_second_claim_pays_nothing {now now2 : Nat} {w w' w2 w2' : World} {accs accs2 : List AccountInfo}
    {ret ret2 : Option Nat} {P M : Key} {p p2 : Pool} {m' m2 : Mining}
    (hw : Wf env now w) (hs : RealSigners accs) (hc : NotPoolAsMining env w accs .claim)
    (h : exec env now w accs .claim = .ok (w', ret))
    (hP : accs[0]?.map (·.key) = some P) (hM : accs[3]?.map (·.key) = some M)
    (hw2 : Wf env now2 w2) (hs2 : RealSigners accs2) (hc2 : NotPoolAsMining env w2 accs2 .claim)
    (h2 : exec env now2 w2 accs2 .claim = .ok (w2', ret2))
    (hP2 : accs2[0]?.map (·.key) = some P) (hM2 : accs2[3]?.map (·.key) = some M)
    (hp : PoolAt env w' P p) (hp2 : PoolAt env w2 P p2) (hm' : MiningAt env w' M m') (hm2 : MiningAt env w2 M m2)
    (same_index : m2.index = m'.index) (same_unclaimed : m2.unclaimed = m'.unclaimed)
    (same_visible : p2.cumulative.filter (fun e => decide (e.1 < now2)) =
      p.cumulative.filter (fun e => decide (e.1 < now))) :
    ret2 = some 0 ∧ ∀ k, k ≠ M → w2' k = w2 k := by
  obtain ⟨P1, T1, V1, M1, O1, A1, U1, r1, p1, m1, c1, rfl, a1, a2, a3, a4, a5, a6, a7, a8, a9, a10⟩ :=
    C01_claim_exact hw hs hc h
  simp only [List.getElem?_cons_zero, List.getElem?_cons_succ, Option.map_some, Option.some.injEq] at hP hM
  subst hP hM
  rw [exec_ok] at h2
  obtain ⟨h2, -⟩ := h2
  simp only [process, res_bind_ok, res_pure_ok, Prod.mk.injEq, Prod.exists] at h2
  obtain ⟨w1, n, h2, rfl, rfl⟩ := h2
  obtain ⟨P, T, V, M, O, A, U, K, rest, q, m, m1', rfl, b1, b2, he⟩ := claim_world hw2 hs2 hc2 h2
  simp only [List.getElem?_cons_zero, List.getElem?_cons_succ, Option.map_some, Option.some.injEq] at hP2 hM2
  rw [hP2, hM2] at he
  have e1 : q = p2 := PoolAt.unique he.pool hp2
  have e2 : m = m2 := MiningAt.unique he.mining hm2
  have e3 : p = p1 := PoolAt.unique hp ((poolAt_congr a9).mpr a1)
  have e4 := MiningAt.unique hm' a8
  subst e1 e2 e3 e4
  obtain ⟨c, e5, g1, g2, g3, g4, g5, g6⟩ := refresh_ok he.good.ok.history he.miningOk.sorted he.refreshed
  have hz : entitlement m q.cumulative now2 = 0 := by
    unfold entitlement
    rw [same_visible]
    refine earned_consumed (Nat.zero_le _) ?_
    intro e hm
    rw [same_index]
    have hist := (hw2 P1.key)
    have hmono := he.good.ok.history.monoFrom.filter (fun e => decide (e.1 < now2))
    rw [same_visible] at hmono
    exact hmono.mem_le_last e hm
  have hc0 : c = 0 := by
    rw [hz] at g5
    have : 0 < PRECISION := by decide
    rcases Nat.eq_zero_or_pos c with h0 | h0
    · exact h0
    · have := Nat.mul_pos this h0; omega
  have hn : n = 0 := by
    rw [he.amount, e5]; simp only [hc0, same_unclaimed]
  subst hn
  exact ⟨rfl, he.zero rfl⟩

/-- C03. A successful Claim is signed by the mining's recorded owner and by the deposit authority of the pool the mining
belongs to; the paying account is at the vault address derived from that pool, and the receiving token account is owned
by the mining's owner. -/
theorem C03_only_owner_paid {now : Nat} {w w' : World} {accs : List AccountInfo} {ret : Option Nat} (hw : Wf env now w)
    (hs : RealSigners accs) (hc : NotPoolAsMining env w accs .claim)
    (h : exec env now w accs .claim = .ok (w', ret)) :
    ∃ P T V M O A U rest p m t, accs = P :: T :: V :: M :: O :: A :: U :: rest ∧
      PoolAt env w P.key p ∧ MiningAt env w M.key m ∧ TokenAt env w U.key t ∧
      Signed accs m.owner ∧ Signed accs p.depositAuthority ∧ m.rewardPool = P.key ∧
      env.vaultAddr P.key T.key p.bump = some V.key ∧ t.owner = m.owner := by
  rw [exec_ok] at h
  obtain ⟨h, -⟩ := h
  simp only [process, res_bind_ok, res_pure_ok, Prod.mk.injEq, Prod.exists] at h
  obtain ⟨w1, n, h, rfl, rfl⟩ := h
  obtain ⟨P, T, V, M, O, A, U, K, rest, p, m, m1, rfl, h1, h2, he⟩ := claim_world hw hs hc h
  obtain ⟨t, t1, t2⟩ := he.userTok
  refine ⟨P, T, V, M, O, A, U, _, p, m, t, rfl, he.pool, he.mining, t1, ?_, ?_, he.inPool, he.vaultAddr,
    by rw [t2, he.owner]⟩
  · exact ⟨O, by simp, he.owner.symm, h1⟩
  · exact ⟨A, by simp, he.auth.symm, h2⟩

namespace Demo

/-- The second user claims. -/
example : ∃ w', Succeeds afterStory [R 100, R 101, W (vaultOf 100 101), W (mine 121 100), S 121, S 110, W 131, R 2]
    .claim w' := succeeds afterStory_reachable (by decide +kernel)

example : returned afterStory (claim 100 121 131) = some 740 := by decide +kernel

/-- And again after an hour and a further deposit: nothing. -/
example : returned ((run s0 (story ++ [claim 100 121 131, .tick 3600, deposit 100 121 5 .flex 121])).getD s0)
    (claim 100 121 131) = some 0 := by decide +kernel

end Demo

end Verif
