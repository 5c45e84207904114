import Verif.Lemmas.Conserve
import Verif.Lemmas.DemoExec
/-!
Atomicity and writability (C36), conservation of lamports (C37) and of tokens (C38).  These hold in arbitrary states, for
arbitrary account lists, without any assumption about the accounts' contents.
-/

namespace Verif

open Spec

section

variable {env : Env}

/-- C36, one instruction: if it fails, the state is unchanged; if it succeeds, every account that changed was passed, and
passed as writable only. -/
theorem C36_instruction (s : Chain) (accs : List AccountInfo) (i : Ix) :
    match exec env s.now s.world accs i with
    | .error _ => s.apply env (.ix accs i) = s
    | .ok (w', _) => s.apply env (.ix accs i) = { s with world := w' } ∧
        ∀ k, w' k ≠ s.world k → (∃ a ∈ accs, a.key = k) ∧ ∀ a ∈ accs, a.key = k → a.isWritable = true := by
  cases hx : exec env s.now s.world accs i with
  | error e => exact apply_ix_error hx
  | ok r =>
    obtain ⟨w', ret⟩ := r
    refine ⟨apply_ix_ok hx, fun k hk => ?_⟩
    rw [exec_ok] at hx
    refine ⟨?_, ?_⟩
    · have := (outer_of_process hx.1).listed hk
      simpa using this
    · rintro a ha rfl
      cases hb : a.isWritable with
      | true => rfl
      | false => exact absurd (hx.2 a ha hb) hk

/-- C36, a transaction: either every instruction succeeds, and the result is that of executing them one after the other, or
nothing changes. -/
theorem C36_transaction (now : Nat) (w : World) (tx : List (List AccountInfo × Ix)) :
    runTx env now w tx = w ∨
    ∃ ws : List World, ws.length = tx.length + 1 ∧ ws[0]? = some w ∧ ws[tx.length]? = some (runTx env now w tx) ∧
      ∀ n t, tx[n]? = some t → ∃ v v' ret, ws[n]? = some v ∧ ws[n + 1]? = some v' ∧
        exec env now v t.1 t.2 = .ok (v', ret) := by
  unfold runTx
  cases hx : execAll env now w tx with
  | error e => exact Or.inl rfl
  | ok w' =>
    refine Or.inr ?_
    simp only
    induction tx generalizing w with
    | nil =>
      simp only [execAll, Except.ok.injEq] at hx
      exact ⟨[w], rfl, rfl, by simp [hx], by simp⟩
    | cons t tx ih =>
      obtain ⟨accs, i⟩ := t
      simp only [execAll, res_bind_ok, Prod.exists] at hx
      obtain ⟨w1, ret, h1, h2⟩ := hx
      obtain ⟨ws, e1, e2, e3, e4⟩ := ih w1 h2
      refine ⟨w :: ws, by simp [e1], rfl, by simpa using e3, ?_⟩
      intro n t ht
      cases n with
      | zero =>
        simp only [List.getElem?_cons_zero, Option.some.injEq] at ht
        subst ht
        exact ⟨w, w1, ret, rfl, by simpa using e2, h1⟩
      | succ n =>
        simp only [List.getElem?_cons_succ] at ht ⊢
        exact e4 n t ht

/-- C37: the lamports of all accounts involved (and of any others) sum up to the same as before; and except in
InitializePool, InitializeMining and CloseMining the lamports of no account change, unless the instruction transfers
wrapped SOL (`native` token accounts, where the token program moves the lamports along with the tokens). -/
theorem C37_lamports {now : Nat} {w w' : World} {accs : List AccountInfo} {i : Ix} {ret : Option Nat}
    (h : exec env now w accs i = .ok (w', ret)) :
    (∀ ks : List Key, ks.Nodup → (∀ a ∈ accs, a.key ∈ ks) →
      sumOver (fun k => (w' k).lamports) ks = sumOver (fun k => (w k).lamports) ks) ∧
    ((∀ f d, i ≠ .initializePool f d) → (∀ o, i ≠ .initializeMining o) → i ≠ .closeMining →
      (∀ a ∈ accs, ∀ t, TokenAt env w a.key t → t.native = false) → ∀ k, (w' k).lamports = (w k).lamports) := by
  have ho := outer_of_process (exec_ok.mp h).1
  refine ⟨fun ks hn hc => ho.lamports hn hc, ?_⟩
  intro h1 h2 h3 h4 k
  cases ho with
  | data write => exact (write.shell k).2.1
  | @transfer _ w1 S D F n kind write src dst auth signed move =>
    obtain ⟨t, t', ht, -⟩ := move.srcTok
    have e : w1 S.key = w S.key := by
      apply Classical.byContradiction
      intro hne
      have := (write.listed _ hne).2
      rw [← (write.shell S.key).1, ht.1] at this
      exact env.program_ne_token this.symm
    have hn := h4 S src t (by unfold TokenAt at *; rw [← e]; exact ht)
    rw [move.native t ht hn k, (write.shell k).2.1]
  | create kind =>
    cases i with
    | initializePool f d => exact absurd rfl (h1 f d)
    | initializeMining o => exact absurd rfl (h2 o)
    | closeMining => exact absurd rfl h3
    | _ => cases kind
  | close => exact absurd rfl h3

/-- C38: token amounts sum up to the same as before; only FillVault and Claim change the amount of any account; and when
the amount of an account falls, its owner or its delegate (in the sense of the token program) signed. -/
theorem C38_tokens {now : Nat} {w w' : World} {accs : List AccountInfo} {i : Ix} {ret : Option Nat}
    (h : exec env now w accs i = .ok (w', ret)) :
    (∀ ks : List Key, ks.Nodup → (∀ a ∈ accs, a.key ∈ ks) → sumOver (tokens env w') ks = sumOver (tokens env w) ks) ∧
    ((∀ r e, i ≠ .fillVault r e) → i ≠ .claim → ∀ k, tokens env w' k = tokens env w k) ∧
    (∀ k, tokens env w' k < tokens env w k → ∃ t b, TokenAt env w k t ∧ (t.owner = b ∨ t.delegate = some b) ∧
      Signed accs b) := by
  have ho := outer_of_process (exec_ok.mp h).1
  refine ⟨fun ks hn hc => ho.tokens_sum hn hc, ?_, ?_⟩
  · intro h1 h2 k
    refine ho.tokens_same ?_ k
    cases i with
    | fillVault r e => exact absurd rfl (h1 r e)
    | claim => exact absurd rfl h2
    | _ => rfl
  · intro k hk
    by_cases hi : movesTokens i = false
    · rw [ho.tokens_same hi k] at hk; exact absurd hk (Nat.lt_irrefl _)
    cases ho with
    | data write => rw [write.tokens k] at hk; exact absurd hk (Nat.lt_irrefl _)
    | @transfer _ w1 S D F n kind write src dst auth signed move =>
      rw [← write.tokens k] at hk
      have e : ∀ j, (w1 j).owner = env.tokenProgram → w1 j = w j := by
        intro j hj
        apply Classical.byContradiction
        intro hne
        have := (write.listed _ hne).2
        rw [← (write.shell j).1, hj] at this
        exact env.program_ne_token this.symm
      rcases move.tokens with ⟨-, e1⟩ | ⟨hne, e1, e2⟩
      · rw [e1] at hk; exact absurd hk (Nat.lt_irrefl _)
      · by_cases k1 : k = S.key
        · obtain ⟨t, t', ht, -, -, ha, -⟩ := move.srcTok
          subst k1
          refine ⟨t, F.key, ?_, ha.symm, F, auth, rfl, signed⟩
          unfold TokenAt; rw [← e _ ht.1]; exact ht
        · by_cases k2 : k = D.key
          · subst k2; omega
          · have : tokens env w' k = tokens env w1 k := by unfold tokens balance; rw [move.frame k k1 k2]
            omega
    | create kind => cases i <;> first | exact absurd rfl hi | cases kind
    | close => exact absurd rfl hi

end

/-! ### Examples -/

namespace Demo

/-- C36, C38: a Claim that pays out 740 tokens, and one that fails (wrong vault). -/
example : ((exec env afterStory.now afterStory.world
      [R 100, R 101, W (vaultOf 100 101), W (mine 121 100), S 121, S 110, W 131, R 2] .claim).toOption.map
      fun r => (r.2, tokens env r.1 131, tokens env r.1 (vaultOf 100 101))) = some (some 740, 740, 9260) := by decide +kernel

example : ((exec env afterStory.now afterStory.world
      [R 100, R 101, W 130, W (mine 121 100), S 121, S 110, W 131, R 2] .claim).toOption.map (·.2)) = none := by
  decide +kernel

/-- C36: a transaction of two instructions, and one whose second instruction fails. -/
example : tokens env (runTx env afterStory.now afterStory.world
    [([R 100, R 101, W (vaultOf 100 101), W (mine 121 100), S 121, S 110, W 131, R 2], .claim),
     ([R 100, R 101, W (vaultOf 100 101), W (mine 120 100), S 120, S 110, W 130, R 2], .claim)]) (vaultOf 100 101) = 7779 ∧
    tokens env (runTx env afterStory.now afterStory.world
    [([R 100, R 101, W (vaultOf 100 101), W (mine 121 100), S 121, S 110, W 131, R 2], .claim),
     ([R 100, R 101, W 130, W (mine 121 100), S 121, S 110, W 131, R 2], .claim)]) (vaultOf 100 101) = 10000 := by
  decide +kernel

/-- C37: InitializeMining moves the rent from the payer to the new account, in a covering list without repetitions. -/
example : ((exec env s0.now ((run s0 [initPool 100]).getD s0).world [R 100, W (mine 120 100), SW 102, R 3]
    (.initializeMining 120)).toOption.map fun r => ((r.1 102).lamports, (r.1 (mine 120 100)).lamports)) =
    some (999980, 10) := by decide +kernel

example : [100, mine 120 100, 102, 3].Nodup := by decide +kernel

end Demo

end Verif
