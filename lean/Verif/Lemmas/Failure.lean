import Verif.Spec.Failure
import Verif.Lemmas.Honest
/-!
What the error of each function stands for.
-/

namespace Verif

open Spec

/-- Every error of `x` satisfies `S`. -/
def Throws {α : Type} (x : Res α) (S : Err → Prop) : Prop := ∀ e, x = .error e → S e

section
variable {α β : Type} {S : Err → Prop}

theorem throws_bind {x : Res α} {f : α → Res β} (h : Throws x S) (h' : ∀ a, x = .ok a → Throws (f a) S) :
    Throws (x >>= f) S := by
  intro e he
  cases x with
  | error e' => exact h e (by cases he; rfl)
  | ok a => exact h' a rfl e he

theorem throws_ok {a : α} : Throws (.ok a : Res α) S := nofun
theorem throws_pure {a : α} : Throws (pure a : Res α) S := nofun

theorem throws_error {e : Err} (h : S e) : Throws (.error e : Res α) S := by
  intro e' he; cases he; exact h

theorem throws_ensure {c : Prop} [Decidable c] {e : Err} (h : ¬ c → S e) : Throws (ensure c e) S := by
  unfold ensure
  split
  · exact throws_ok
  · exact throws_error (h ‹_›)

theorem throws_okOr {o : Option α} {e : Err} (h : o = none → S e) : Throws (okOr o e) S := by
  unfold okOr
  split
  · exact throws_ok
  · exact throws_error (h rfl)

theorem throws_add (h : S mathOverflow) (a b : Nat) : Throws (safeAdd64 a b) S := by
  unfold safeAdd64; split
  · exact throws_ok
  · exact throws_error h

theorem throws_mul (h : S mathOverflow) (a b : Nat) : Throws (safeMul64 a b) S := by
  unfold safeMul64; split
  · exact throws_ok
  · exact throws_error h

theorem throws_sub (h : S mathOverflow) (a b : Nat) : Throws (safeSub a b) S := by
  unfold safeSub; split
  · exact throws_ok
  · exact throws_error h

theorem throws_add128 (h : S mathOverflow) (a b : Nat) : Throws (safeAdd128 a b) S := by
  unfold safeAdd128; split
  · exact throws_ok
  · exact throws_error h

theorem throws_mul128 (h : S mathOverflow) (a b : Nat) : Throws (safeMul128 a b) S := by
  unfold safeMul128; split
  · exact throws_ok
  · exact throws_error h

theorem throws_div (h : S mathOverflow) (a b : Nat) : Throws (safeDiv a b) S := by
  unfold safeDiv; split
  · exact throws_error h
  · exact throws_ok

theorem throws_tryFrom (h : S (.custom .invalidPrimitiveTypesConversion)) (a : Nat) : Throws (u64TryFrom a) S := by
  unfold u64TryFrom; split
  · exact throws_ok
  · exact throws_error h

theorem Throws.mono {x : Res α} {S' : Err → Prop} (h : Throws x S) (h' : ∀ e, S e → S' e) : Throws x S' :=
  fun e he => h' e (h e he)

end

/-- Errors of checked arithmetic. -/
def Arith (e : Err) : Prop := e = mathOverflow ∨ e = .custom .invalidPrimitiveTypesConversion

theorem updateIndex_throws {cum : SMap} {date total u i : Nat} : Throws (Mining.updateIndex cum date total u i) Arith := by
  unfold Mining.updateIndex
  refine throws_bind (throws_sub (.inl rfl) _ _) fun _ _ => throws_bind (throws_mul128 (.inl rfl) _ _) fun _ _ =>
    throws_bind (throws_div (.inl rfl) _ _) fun _ _ => throws_bind (throws_tryFrom (.inr rfl) _) fun _ _ => ?_
  dsimp only
  split
  · exact throws_bind (throws_add (.inl rfl) _ _) fun _ _ => throws_pure
  · exact throws_bind throws_pure fun _ _ => throws_pure

theorem consumeLoop_throws {cum : SMap} {b : Nat} {l : List (Nat × Nat)} {s : Mining.Consume} :
    Throws (Mining.consumeLoop cum b l s) Arith := by
  induction l generalizing s with
  | nil => exact throws_ok
  | cons x t ih =>
    unfold Mining.consumeLoop
    split
    · exact throws_ok
    · exact throws_bind updateIndex_throws fun _ _ => throws_bind (throws_sub (.inl rfl) _ _) fun _ _ => ih

theorem refresh_throws {now : Nat} {cum : SMap} {m : Mining} : Throws (m.refreshRewards now cum) Arith := by
  unfold Mining.refreshRewards Mining.consumeOldModifiers
  exact throws_bind (throws_add (.inl rfl) _ _) fun _ _ =>
    throws_bind (throws_bind consumeLoop_throws fun _ _ => throws_pure) fun _ _ =>
    throws_bind updateIndex_throws fun _ _ => throws_bind (throws_sub (.inl rfl) _ _) fun _ _ => throws_pure

theorem poolConsume_throws {p : Pool} {b : Nat} : Throws (p.consumeOldModifiers b) (· = mathOverflow) := by
  have loop : ∀ (l : List (Nat × Nat)) (s : Nat) (q : List Nat), Throws (Pool.consumeLoop b l s q) (· = mathOverflow) := by
    intro l
    induction l with
    | nil => intro s q; exact throws_ok
    | cons x t ih =>
      intro s q
      unfold Pool.consumeLoop
      split
      · exact throws_ok
      · exact throws_bind (throws_sub (S := (· = mathOverflow)) rfl _ _) fun _ _ => ih _ _
  unfold Pool.consumeOldModifiers
  exact throws_bind (loop _ _ _) fun _ _ => throws_pure

theorem withDelegate_throws {S : Err → Prop} {p : Pool} {d : Option Mining} {f : Pool → Mining → Res (Pool × Mining)}
    (h : ∀ p m, Throws (f p m) S) : Throws (p.withDelegate d f) S := by
  unfold Pool.withDelegate
  split
  · exact throws_ok
  · exact throws_bind (h _ _) fun _ _ => throws_pure

theorem delegateAdd_throws {now a : Nat} {p : Pool} {d : Mining} : Throws (Pool.delegateAdd now a p d) Arith := by
  unfold Pool.delegateAdd
  exact throws_bind (throws_add (.inl rfl) _ _) fun _ _ => throws_bind (throws_add (.inl rfl) _ _) fun _ _ =>
    throws_bind refresh_throws fun _ _ => throws_pure

theorem delegateSub_throws {now a : Nat} {p : Pool} {d : Mining} : Throws (Pool.delegateSub now a p d) Arith := by
  unfold Pool.delegateSub
  exact throws_bind (throws_sub (.inl rfl) _ _) fun _ _ => throws_bind (throws_sub (.inl rfl) _ _) fun _ _ =>
    throws_bind refresh_throws fun _ _ => throws_pure

theorem changeDelegate_throws {now a : Nat} {p : Pool} {m : Mining} {x y : Option Mining} :
    Throws (p.changeDelegate now m x y a) Arith := by
  unfold Pool.changeDelegate
  exact throws_bind refresh_throws fun _ _ => throws_bind (withDelegate_throws fun _ _ => delegateSub_throws) fun _ _ =>
    throws_bind (withDelegate_throws fun _ _ => delegateAdd_throws) fun _ _ => throws_pure

theorem withdraw_throws {now a : Nat} {p : Pool} {m : Mining} {x : Option Mining} : Throws (p.withdraw now m a x) Arith := by
  unfold Pool.withdraw
  exact throws_bind refresh_throws fun _ _ => throws_bind (throws_sub (.inl rfl) _ _) fun _ _ =>
    throws_bind (throws_sub (.inl rfl) _ _) fun _ _ => throws_bind (poolConsume_throws.mono fun _ h => .inl h) fun _ _ =>
    throws_bind (withDelegate_throws fun _ _ => delegateSub_throws) fun _ _ => throws_pure

/-- Errors of the end of a lock. -/
def EndErr (l : LockupPeriod) (ts : Nat) (e : Err) : Prop :=
  e = .custom .invalidLockupPeriod ∧ l = .none ∨ e = .panic ∧ 2 ^ 64 ≤ midnight ts + lockDays l * 86400

theorem end_throws {l : LockupPeriod} {ts : Nat} : Throws (l.endTimestamp ts) (EndErr l ts) := by
  have raw : ∀ n, lockDays l = n → Throws (rawAdd64 (bod ts) (DAY * n)) (EndErr l ts) := by
    intro n hn
    unfold rawAdd64
    split
    · exact throws_ok
    · rename_i h
      refine throws_error (.inr ⟨rfl, ?_⟩)
      rw [hn, ← bod_eq_midnight]
      unfold DAY U64 at h
      omega
  cases l
  · exact throws_error (.inl ⟨rfl, rfl⟩)
  all_goals exact raw _ rfl

theorem deposit_throws {caps : Caps} {now a : Nat} {p : Pool} {m : Mining} {l : LockupPeriod} {x : Option Mining} :
    Throws (p.deposit caps now m a l x) fun e => Arith e ∨ e = .custom .invalidLockupPeriod ∧ l = .none ∧ a = 0 ∨
      e = .panic ∧ 2 ^ 64 ≤ midnight now + lockDays l * 86400 := by
  unfold Pool.deposit
  refine throws_bind (refresh_throws.mono fun _ h => .inl h) fun m1 _ => ?_
  refine throws_bind (throws_mul (.inl (.inl rfl)) _ _) fun ws h1 => ?_
  refine throws_bind (throws_mul (.inl (.inl rfl)) _ _) fun fs h2 => ?_
  refine throws_bind (throws_sub (.inl (.inl rfl)) _ _) fun _ h3 => ?_
  refine throws_bind (throws_add (.inl (.inl rfl)) _ _) fun _ _ => ?_
  refine throws_bind (throws_add (.inl (.inl rfl)) _ _) fun _ _ => ?_
  refine throws_bind (end_throws.mono fun e h => ?_) fun _ _ => ?_
  · rcases h with ⟨rfl, rfl⟩ | h
    · refine .inr (.inl ⟨rfl, rfl, ?_⟩)
      rw [safeMul64_ok] at h1 h2
      rw [safeSub_ok] at h3
      have e1 : ws = a * 0 := by first | exact h1.2.symm | exact h1.2
      have e2 : fs = a * 1 := by first | exact h2.2.symm | exact h2.2
      omega
    · exact .inr (.inr h)
  refine throws_bind (throws_add (.inl (.inl rfl)) _ _) fun _ _ => ?_
  dsimp only
  split
  · exact throws_bind (throws_add (.inl (.inl rfl)) _ _) fun _ _ => throws_bind throws_pure fun _ _ =>
      throws_bind (withDelegate_throws fun _ _ => delegateAdd_throws.mono fun _ h => .inl h) fun _ _ => throws_pure
  · exact throws_bind throws_pure fun _ _ =>
      throws_bind (withDelegate_throws fun _ _ => delegateAdd_throws.mono fun _ h => .inl h) fun _ _ => throws_pure

theorem modifyDiffs_throws {D : SMap} {t d : Nat} : Throws (Pool.modifyDiffs D t d)
    fun e => Arith e ∨ e = .custom .noWeightedStakeModifiersAtADate ∧ SMap.get D t = none := by
  unfold Pool.modifyDiffs
  split
  · rename_i h
    exact throws_error (.inr ⟨rfl, h⟩)
  · exact throws_bind (throws_sub (.inl (.inl rfl)) _ _) fun _ _ => throws_pure

/-- Errors of a slash. -/
def SlashErr (now : Nat) (p : Pool) (m : Mining) (ts : Option Nat) (e : Err) : Prop :=
  Arith e ∨ e = .custom .noWeightedStakeModifiersAtADate ∧ ∃ t, ts = some t ∧ (midnight t ≤ midnight now ∨
    SMap.get m.diffs (midnight t) = none ∨ SMap.get p.diffs (midnight t) = none)

theorem slash_throws {now n k : Nat} {p : Pool} (hp : PoolOk now p) {m : Mining} (hm : MiningOk m) {ts : Option Nat} :
    Throws (p.slash now m n k ts) (SlashErr now p m ts) := by
  unfold Pool.slash
  refine throws_bind (withdraw_throws.mono fun _ h => .inl h) fun ⟨p1, m1, d1⟩ h => ?_
  obtain ⟨m2, h1, -, -, h2, h3⟩ := withdraw_ok hp.sorted h
  simp only [Pool.withDelegate, Except.ok.injEq, Prod.mk.injEq] at h3
  obtain ⟨c, h4, -⟩ := refresh_ok hp.history hm.sorted h1
  have dm : m1.diffs = after m.diffs (bod now) := by rw [h2, h4]
  have dp : p1.diffs = after p.diffs (bod now) := by rw [← h3.1]
  clear h h1 h2 h3 h4
  dsimp only
  split
  · exact throws_pure
  · rename_i t
    have key : ∀ {D : SMap}, Sorted D → SMap.get (after D (bod now)) (bod t) = none →
        midnight t ≤ midnight now ∨ SMap.get D (midnight t) = none := by
      intro D hs h
      by_cases hlt : bod now < bod t
      · rw [get_after hs hlt] at h
        right; rw [← bod_eq_midnight]; exact h
      · left; rw [← bod_eq_midnight, ← bod_eq_midnight]; omega
    refine throws_bind (throws_sub (.inl (.inl rfl)) _ _) fun _ _ => ?_
    refine throws_bind (modifyDiffs_throws.mono fun e he => ?_) fun _ _ => ?_
    · rcases he with he | ⟨he, hg⟩
      · exact .inl he
      · rw [dm] at hg
        refine .inr ⟨he, t, rfl, ?_⟩
        rcases key hm.sorted hg with h | h
        · exact .inl h
        · exact .inr (.inl h)
    refine throws_bind (modifyDiffs_throws.mono fun e he => ?_) fun _ _ => throws_pure
    · rcases he with he | ⟨he, hg⟩
      · exact .inl he
      · rw [dp] at hg
        refine .inr ⟨he, t, rfl, ?_⟩
        rcases key hp.sorted hg with h | h
        · exact .inl h
        · exact .inr (.inr h)

/-- Errors of an extension. -/
def ExtendErr (now : Nat) (m : Mining) (l l' : LockupPeriod) (ts b a : Nat) (e : Err) : Prop :=
  Arith e ∨ e = .custom .invalidLockupPeriod ∧ (l = .none ∨ l' = .none ∧ b + a = 0) ∨
    e = .panic ∧ (2 ^ 64 ≤ midnight ts + lockDays l * 86400 ∨ 2 ^ 64 ≤ midnight now + lockDays l' * 86400) ∨
    e = .custom .noWeightedStakeModifiersAtADate ∧ l ≠ .flex ∧ now < midnight ts + lockDays l * 86400 ∧
      SMap.get m.diffs (midnight ts + lockDays l * 86400) = none

theorem end_lockDays {l : LockupPeriod} {ts e : Nat} (h : l.endTimestamp ts = .ok e) :
    e = midnight ts + lockDays l * 86400 := by
  rw [endTimestamp_ok] at h
  obtain ⟨n, h1, -, rfl⟩ := h
  rw [← bod_eq_midnight]
  cases l <;> simp [LockupPeriod.days] at h1 <;> subst h1 <;> simp [lockDays, DAY]

theorem extend_throws {caps : Caps} {now ts b a : Nat} {p : Pool} (hp : PoolOk now p) {m : Mining} (hm : MiningOk m)
    {l l' : LockupPeriod} {x : Option Mining} :
    Throws (p.extend caps now m l l' ts b a x) (ExtendErr now m l l' ts b a) := by
  unfold Pool.extend
  refine throws_bind (refresh_throws.mono fun _ h => .inl h) fun m1 h => ?_
  obtain ⟨c, h4, -⟩ := refresh_ok hp.history hm.sorted h
  have dm : m1.diffs = after m.diffs (bod now) := by rw [h4]
  clear h h4
  have tail : ∀ (p : Pool) (m1 : Mining), Throws (safeAdd64 b a >>= fun r =>
      p.withDelegate x (Pool.delegateSub now b) >>= fun y => y.1.deposit caps now m1 r l' y.2)
      (ExtendErr now m l l' ts b a) := by
    intro p m1
    refine throws_bind (throws_add (.inl (.inl rfl)) _ _) fun r hr => ?_
    refine throws_bind (withDelegate_throws fun _ _ => delegateSub_throws.mono fun _ h => .inl h) fun _ _ => ?_
    refine deposit_throws.mono fun e he => ?_
    rw [safeAdd64_ok] at hr
    rcases he with he | ⟨he, h1, h2⟩ | ⟨he, h1⟩
    · exact .inl he
    · exact .inr (.inl ⟨he, .inr ⟨h1, by omega⟩⟩)
    · exact .inr (.inr (.inl ⟨he, .inr h1⟩))
  have key : ∀ e, (l = LockupPeriod.flex ∧ e = 0 ∨ l ≠ LockupPeriod.flex ∧ l.endTimestamp ts = .ok e) →
      Throws (safeMul64 b LockupPeriod.flex.multiplier >>= fun f =>
        if now < e then safeMul64 b l.multiplier >>= fun w => safeSub w f >>= fun d => Pool.modifyDiffs m1.diffs e d >>= fun D =>
            safeSub m1.share w >>= fun s => safeSub p.totalShare w >>= fun t =>
            pure (({ p with totalShare := t } : Pool), ({ m1 with diffs := D, share := s } : Mining)) >>= fun y =>
            safeAdd64 b a >>= fun r =>
              y.1.withDelegate x (Pool.delegateSub now b) >>= fun z => z.1.deposit caps now y.2 r l' z.2
          else safeSub m1.share f >>= fun s => safeSub p.totalShare f >>= fun t =>
            pure (({ p with totalShare := t } : Pool), ({ m1 with share := s } : Mining)) >>= fun y =>
            safeAdd64 b a >>= fun r =>
              y.1.withDelegate x (Pool.delegateSub now b) >>= fun z => z.1.deposit caps now y.2 r l' z.2)
        (ExtendErr now m l l' ts b a) := by
    intro e he
    refine throws_bind (throws_mul (.inl (.inl rfl)) _ _) fun _ _ => ?_
    split
    · rename_i hlt
      refine throws_bind (throws_mul (.inl (.inl rfl)) _ _) fun _ _ => ?_
      refine throws_bind (throws_sub (.inl (.inl rfl)) _ _) fun _ _ => ?_
      refine throws_bind (modifyDiffs_throws.mono fun e' he' => ?_) fun _ _ => ?_
      · rcases he' with he' | ⟨he', hg⟩
        · exact .inl he'
        rcases he with ⟨-, rfl⟩ | ⟨hl, he⟩
        · omega
        have := end_aligned he
        rw [dm, get_after hm.sorted (by unfold bod; unfold DAY at *; omega)] at hg
        have := end_lockDays he
        exact .inr (.inr (.inr ⟨he', hl, this ▸ hlt, this ▸ hg⟩))
      exact throws_bind (throws_sub (.inl (.inl rfl)) _ _) fun _ _ =>
        throws_bind (throws_sub (.inl (.inl rfl)) _ _) fun _ _ => throws_bind throws_pure fun _ _ => tail _ _
    · exact throws_bind (throws_sub (.inl (.inl rfl)) _ _) fun _ _ =>
        throws_bind (throws_sub (.inl (.inl rfl)) _ _) fun _ _ => throws_bind throws_pure fun _ _ => tail _ _
  dsimp only
  split
  · rename_i hl
    refine throws_bind throws_pure fun e he => ?_
    cases he
    exact key 0 (.inl ⟨hl, rfl⟩)
  · rename_i hl
    refine throws_bind (end_throws.mono fun e he => ?_) fun e he => ?_
    · rcases he with ⟨h1, h2⟩ | ⟨h1, h2⟩
      · exact .inr (.inl ⟨h1, .inl h2⟩)
      · exact .inr (.inr (.inl ⟨h1, .inl h2⟩))
    exact key e (.inr ⟨hl, he⟩)

/-! ### The list of accounts -/

/-- The next account, if it meets what is asked. -/
def take (w : World) (s : Slot) : List AccountInfo → Res (AccountInfo × List AccountInfo)
  | [] => .error .notEnoughAccountKeys
  | a :: r => if s.Fits w a then .ok (a, r) else .error s.error

theorem nextWithOwner_take (w : World) (k : Key) (accs : List AccountInfo) : nextWithOwner w k accs = take w (.owned k) accs := by
  cases accs with
  | nil => rfl
  | cons a r =>
    unfold nextWithOwner take nextAcc ensure
    by_cases h : (w a.key).owner = k <;> simp [Slot.Fits, Slot.error, h, bind, Except.bind, pure, Except.pure]

theorem nextSigner_take (w : World) (accs : List AccountInfo) : nextSigner accs = take w .signer accs := by
  cases accs with
  | nil => rfl
  | cons a r =>
    unfold nextSigner take nextAcc ensure
    by_cases h : a.isSigner = true <;> simp [Slot.Fits, Slot.error, h, bind, Except.bind, pure, Except.pure]

theorem nextWithKey_take (w : World) (k : Key) (accs : List AccountInfo) : nextWithKey k accs = take w (.address k) accs := by
  cases accs with
  | nil => rfl
  | cons a r =>
    unfold nextWithKey take nextAcc ensure
    by_cases h : a.key = k <;> simp [Slot.Fits, Slot.error, h, bind, Except.bind, pure, Except.pure]

theorem nextUninitialized_take (w : World) (accs : List AccountInfo) : nextUninitialized w accs = take w .fresh accs := by
  cases accs with
  | nil => rfl
  | cons a r =>
    unfold nextUninitialized take nextAcc ensure
    by_cases h : (w a.key).content.allZero = true <;>
      simp [Slot.Fits, Slot.error, h, bind, Except.bind, pure, Except.pure]

theorem slotError_some {w : World} {s : Slot} {ss : List Slot} {accs : List AccountInfo} {e : Err}
    (h : slotError w (s :: ss) accs = some e) :
    take w s accs = .error e ∨ ∃ a r, accs = a :: r ∧ take w s accs = .ok (a, r) ∧ slotError w ss r = some e := by
  cases accs with
  | nil => left; cases h; rfl
  | cons a r =>
    unfold slotError at h
    unfold take
    split at h
    · rename_i hf
      exact .inr ⟨a, r, rfl, by simp [hf], h⟩
    · rename_i hf
      cases h
      left; simp [hf]

theorem slotError_none {w : World} {s : Slot} {ss : List Slot} {accs : List AccountInfo}
    (h : slotError w (s :: ss) accs = none) :
    ∃ a r, accs = a :: r ∧ s.Fits w a ∧ take w s (a :: r) = .ok (a, r) ∧ slotError w ss r = none := by
  cases accs with
  | nil => cases h
  | cons a r =>
    unfold slotError at h
    unfold take
    split at h
    · rename_i hf
      exact ⟨a, r, rfl, hf, by simp [hf], h⟩
    · cases h

theorem first_error {β : Type} {w : World} {s : Slot} {ss : List Slot} {accs : List AccountInfo} {e : Err}
    (h : slotError w (s :: ss) accs = some e) {x : Res (AccountInfo × List AccountInfo)} (hx : x = take w s accs)
    {f : AccountInfo × List AccountInfo → Res β} (hf : ∀ a r, slotError w ss r = some e → f (a, r) = .error e) :
    (x >>= f) = .error e := by
  rcases slotError_some h with h' | ⟨a, r, -, h', h''⟩
  · rw [hx, h']; rfl
  · rw [hx, h']; exact hf a r h''

theorem throws_step {α β : Type} {S : Err → Prop} {x : Res α} {f : α → Res β} {a : α} (h : x = .ok a)
    (h' : Throws (f a) S) : Throws (x >>= f) S := by
  rw [h]; exact h'

theorem accounts_first {env : Env} {now : Nat} {w : World} {accs : List AccountInfo} {i : Ix} {e : Err}
    (h : slotError w (slots env i) accs = some e) : process env now w accs i = .error e := by
  have lift : ∀ {α β : Type} {x : Res α} {f : α → Res β}, x = .error e → (x >>= f) = .error e := fun h => by rw [h]; rfl
  cases i <;> refine lift ?_
  · unfold processInitializePool
    exact first_error h (nextWithOwner_take _ _ _) fun _ _ h =>
      first_error h (nextWithOwner_take _ _ _) fun _ _ h =>
      first_error h (nextUninitialized_take _ _) fun _ _ h =>
      first_error h (nextSigner_take _ _) fun _ _ h =>
      first_error h (nextSigner_take _ _) fun _ _ h =>
      first_error h (nextWithKey_take _ _ _) fun _ _ h =>
      first_error h (nextWithKey_take _ _ _) fun _ _ h =>
      first_error h (nextWithKey_take _ _ _) nofun
  · unfold processFillVault
    exact first_error h (nextWithOwner_take _ _ _) fun _ _ h =>
      first_error h (nextWithOwner_take _ _ _) fun _ _ h =>
      first_error h (nextWithOwner_take _ _ _) fun _ _ h =>
      first_error h (nextSigner_take _ _) fun _ _ h =>
      first_error h (nextWithOwner_take _ _ _) fun _ _ h =>
      first_error h (nextWithKey_take _ _ _) nofun
  · unfold processInitializeMining
    exact first_error h (nextWithOwner_take _ _ _) fun _ _ h =>
      first_error h (nextUninitialized_take _ _) fun _ _ h =>
      first_error h (nextSigner_take _ _) fun _ _ h =>
      first_error h (nextWithKey_take _ _ _) nofun
  · unfold processDepositMining
    exact first_error h (nextWithOwner_take _ _ _) fun _ _ h =>
      first_error h (nextWithOwner_take _ _ _) fun _ _ h =>
      first_error h (nextSigner_take _ _) fun _ _ h =>
      first_error h (nextWithOwner_take _ _ _) nofun
  · unfold processWithdrawMining
    exact first_error h (nextWithOwner_take _ _ _) fun _ _ h =>
      first_error h (nextWithOwner_take _ _ _) fun _ _ h =>
      first_error h (nextSigner_take _ _) fun _ _ h =>
      first_error h (nextWithOwner_take _ _ _) nofun
  · unfold processClaim
    exact first_error h (nextWithOwner_take _ _ _) fun _ _ h =>
      first_error h (nextWithOwner_take _ _ _) fun _ _ h =>
      first_error h (nextWithOwner_take _ _ _) fun _ _ h =>
      first_error h (nextWithOwner_take _ _ _) fun _ _ h =>
      first_error h (nextSigner_take _ _) fun _ _ h =>
      first_error h (nextSigner_take _ _) fun _ _ h =>
      first_error h (nextWithOwner_take _ _ _) fun _ _ h =>
      first_error h (nextWithKey_take _ _ _) nofun
  · unfold processExtendStake
    exact first_error h (nextWithOwner_take _ _ _) fun _ _ h =>
      first_error h (nextWithOwner_take _ _ _) fun _ _ h =>
      first_error h (nextSigner_take _ _) fun _ _ h =>
      first_error h (nextWithOwner_take _ _ _) nofun
  · unfold processDistributeRewards
    exact first_error h (nextWithOwner_take _ _ _) fun _ _ h =>
      first_error h (nextSigner_take _ _) nofun
  · unfold processCloseMining
    exact first_error h (nextWithOwner_take _ _ _) fun _ _ h =>
      first_error h (nextSigner_take _ _) fun _ _ h =>
      first_error h (nextWithOwner_take _ _ _) fun _ _ h =>
      first_error h (nextSigner_take _ _) fun _ _ h =>
      first_error h (nextWithOwner_take _ _ _) nofun
  · unfold processChangeDelegate
    exact first_error h (nextWithOwner_take _ _ _) fun _ _ h =>
      first_error h (nextWithOwner_take _ _ _) fun _ _ h =>
      first_error h (nextSigner_take _ _) fun _ _ h =>
      first_error h (nextSigner_take _ _) fun _ _ h =>
      first_error h (nextWithOwner_take _ _ _) fun _ _ h =>
      first_error h (nextWithOwner_take _ _ _) nofun
  · unfold processSlash
    exact first_error h (nextSigner_take _ _) fun _ _ h =>
      first_error h (nextWithOwner_take _ _ _) fun _ _ h =>
      first_error h (nextWithOwner_take _ _ _) nofun
  · unfold processDecreaseRewards
    exact first_error h (nextSigner_take _ _) fun _ _ h =>
      first_error h (nextWithOwner_take _ _ _) fun _ _ h =>
      first_error h (nextWithOwner_take _ _ _) nofun

/-! ### The instructions -/

section
variable {env : Env}

theorem loadPool_at {now : Nat} {w : World} (hw : Wf env now w) {k : Key} {p : Pool} (hp : PoolAt env w k p) :
    loadPool env (w k) = .ok p := by
  rw [loadPool_ok]
  exact ⟨(poolAt_good hw hp).len ▸ Nat.le_refl _, by rw [hp.2]; rfl⟩

theorem proper_init {now : Nat} {w : World} (hw : Wf env now w) {k : Key} {m : Mining} (hm : Proper env w k m) :
    MiningOk m ∧ InitMining env k (w k).len m := by
  obtain ⟨h1, h2⟩ := miningAt_ok hw hm.1
  rcases h2 with h2 | h2
  · exact ⟨h1, h2⟩
  · have := h2.type; rw [hm.2] at this; cases this

theorem loadMining_at {now : Nat} {w : World} (hw : Wf env now w) {k : Key} {m : Mining} (hm : Proper env w k m) :
    loadMining env (w k) = .ok m := by
  rw [loadMining_ok]
  exact ⟨(proper_init hw hm).2.len ▸ Nat.le_refl _, by rw [hm.1.2]; rfl⟩

theorem proper_ne {w : World} {k k' : Key} {p : Pool} {m : Mining} (hp : PoolAt env w k p) (hm : Proper env w k' m) :
    k' ≠ k := by
  rintro rfl
  have := hm.1.2
  rw [hp.2] at this
  cases this

/-- Errors of the checks that all stake operations share. -/
def AccessErr (p : Pool) (m : Mining) (o P A : Key) (e : Err) : Prop :=
  (e = .invalidSeeds ∨ e = .invalidArgument) ∧ (o ≠ m.owner ∨ P ≠ m.rewardPool) ∨
    e = .invalidArgument ∧ A ≠ p.depositAuthority

theorem getPoolAndMining_throws {now : Nat} {w : World} (hw : Wf env now w) {P M A : AccountInfo} {p : Pool} {m : Mining}
    {o : Key} (hp : PoolAt env w P.key p) (hm : Proper env w M.key m) :
    Throws (getPoolAndMining env w o M P A) (AccessErr p m o P.key A.key) := by
  unfold getPoolAndMining
  refine throws_step (loadMining_at hw hm) (throws_step (loadPool_at hw hp) ?_)
  have hi := (proper_init hw hm).2
  have hcase : ∀ {k}, env.miningAddr o P.key m.bump = some k → M.key ≠ k → o ≠ m.owner ∨ P.key ≠ m.rewardPool := by
    intro k hk hne
    by_cases h1 : o = m.owner
    · by_cases h2 : P.key = m.rewardPool
      · rw [h1, h2, hi.addr] at hk
        cases hk
        exact absurd rfl hne
      · exact .inr h2
    · exact .inl h1
  refine throws_bind (throws_okOr fun h => ?_) fun k hk => ?_
  · refine .inl ⟨.inl rfl, ?_⟩
    by_cases h1 : o = m.owner
    · by_cases h2 : P.key = m.rewardPool
      · rw [h1, h2, hi.addr] at h; cases h
      · exact .inr h2
    · exact .inl h1
  have hk' : env.miningAddr o P.key m.bump = some k := by
    unfold okOr at hk; split at hk
    · rename_i h; cases hk; exact h
    · cases hk
  refine throws_bind (throws_ensure fun h => .inl ⟨.inr rfl, hcase hk' h⟩) fun _ _ => ?_
  refine throws_bind (throws_ensure fun h => .inr ⟨rfl, h⟩) fun _ _ => ?_
  refine throws_bind (throws_ensure fun h => .inl ⟨.inr rfl, .inr h⟩) fun _ _ => ?_
  exact throws_bind (throws_ensure fun h => .inl ⟨.inr rfl, .inl h⟩) fun _ _ => throws_pure

theorem getPoolAndMining_eq {now : Nat} {w : World} (hw : Wf env now w) {P M A : AccountInfo} {p : Pool} {m : Mining}
    {o : Key} (hp : PoolAt env w P.key p) (hm : Proper env w M.key m) {x : Pool × Mining}
    (h : getPoolAndMining env w o M P A = .ok x) : x = (p, m) := by
  unfold getPoolAndMining at h
  simp only [loadMining_at hw hm, loadPool_at hw hp, res_bind_ok, res_pure_ok, Except.ok.injEq] at h
  obtain ⟨_, rfl, _, rfl, _, _, _, _, _, _, _, _, _, _, h⟩ := h
  exact h.symm

/-- Errors of the check of the delegate. -/
def DelegateErr (d : Mining) (M D P x : Key) (e : Err) : Prop :=
  (e = .custom .derivationError ∨ e = .custom .invalidMining) ∧ M ≠ D ∧ (x ≠ d.owner ∨ P ≠ d.rewardPool)

theorem loadDelegate_throws {now : Nat} {w : World} (hw : Wf env now w) {P : Key} {M D : AccountInfo} {p : Pool} {d : Mining}
    {x : Key} (hp : PoolAt env w P p) (hd : Proper env w D.key d) :
    Throws (loadDelegate env w D M x P) (DelegateErr d M.key D.key P x) := by
  unfold loadDelegate verifyDelegate
  split
  · rename_i hne
    have hi := (proper_init hw hd).2
    refine throws_bind ?_ fun _ _ => throws_step (loadMining_at hw hd) throws_pure
    refine throws_bind (throws_ensure fun h => absurd (proper_ne hp hd) h) fun _ _ => ?_
    refine throws_step (loadMining_at hw hd) ?_
    refine throws_bind (throws_okOr fun h => ⟨.inl rfl, hne, ?_⟩) fun k hk => throws_ensure fun h => ⟨.inr rfl, hne, ?_⟩
    · by_cases h1 : x = d.owner
      · by_cases h2 : P = d.rewardPool
        · rw [h1, h2, hi.addr] at h; cases h
        · exact .inr h2
      · exact .inl h1
    · by_cases h1 : x = d.owner
      · by_cases h2 : P = d.rewardPool
        · rw [h1, h2, hi.addr] at hk; cases hk; exact absurd rfl h
        · exact .inr h2
      · exact .inl h1
  · exact throws_pure

theorem loadOldDelegate_throws {S : Err → Prop} {now : Nat} {w : World} (hw : Wf env now w) {P : Key} {M D : AccountInfo}
    {p : Pool} {d : Mining} (hp : PoolAt env w P p) (hd : Proper env w D.key d) : Throws (loadOldDelegate env w D M P) S := by
  unfold loadOldDelegate
  split
  · exact throws_bind (throws_ensure fun h => absurd (proper_ne hp hd) h) fun _ _ =>
      throws_step (loadMining_at hw hd) throws_pure
  · exact throws_pure

theorem throws_unpack {S : Err → Prop} (a : Account) (h : (∀ t, a.content ≠ .token t) → S .invalidAccountData)
    (h' : a.content = .zero → S .uninitializedAccount) : Throws (unpackToken a) S := by
  unfold unpackToken
  split
  · exact throws_pure
  · rename_i hc
    split
    · exact throws_error (h' hc)
    · exact throws_error (h (by rw [hc]; nofun))
  · rename_i hc _
    exact throws_error (h hc)

theorem throws_token {S : Err → Prop} (h : S .token) (a : Account) : Throws (tokenOf env a) S := by
  unfold tokenOf
  (repeat' split) <;> first | exact throws_ok | exact throws_error h

theorem splTransfer_throws {S : Err → Prop} {w : World} {a b c : AccountInfo} {n : Nat} (h : S .token)
    (h' : ¬ (c.isSigner = true ∧ a.isWritable = true ∧ b.isWritable = true) → S .privilegeEscalation) :
    Throws (splTransfer env w a b c n) S := by
  unfold splTransfer
  refine throws_bind (throws_ensure h') fun _ _ => throws_bind (throws_token h _) fun _ _ =>
    throws_bind (throws_token h _) fun _ _ => throws_bind (throws_ensure fun _ => h) fun _ _ =>
    throws_bind (throws_ensure fun _ => h) fun _ _ => throws_bind (throws_ensure fun _ => h) fun _ _ =>
    throws_bind (throws_ensure fun _ => h) fun _ _ => throws_bind ?_ fun _ _ => ?_
  · unfold transferAuth
    (repeat' split) <;> first | exact throws_ok | exact throws_error h
  · split
    · exact throws_pure
    · exact throws_bind (throws_ensure fun _ => h) fun _ _ => throws_bind (throws_ensure fun _ => h) fun _ _ => throws_pure

theorem createAccount_throws {S : Err → Prop} {w : World} {a b : AccountInfo} {n : Nat} {k : Key} (h : S .system)
    (h' : ¬ (a.isSigner = true ∧ a.isWritable = true ∧ b.isWritable = true) → S .privilegeEscalation) :
    Throws (createAccount env w a b n k) S := by
  unfold createAccount
  exact throws_bind (throws_ensure h') fun _ _ => throws_bind (throws_ensure fun _ => h) fun _ _ =>
    throws_bind (throws_ensure fun _ => h) fun _ _ => throws_bind (throws_ensure fun _ => h) fun _ _ =>
    throws_bind (throws_ensure fun _ => h) fun _ _ => throws_pure

theorem initializeTokenAccount_throws {S : Err → Prop} {w : World} {a b c : Key} (h : S .token) :
    Throws (initializeTokenAccount env w a b c) S := by
  unfold initializeTokenAccount
  exact throws_bind (throws_ensure fun _ => h) fun _ _ => throws_bind (throws_ensure fun _ => h) fun _ _ => throws_pure

theorem ensure_ok' {c : Prop} [Decidable c] {e : Err} {u : Unit} (h : ensure c e = .ok u) : c := by
  unfold ensure at h; split at h
  · assumption
  · cases h

theorem initializePool_throws {now : Nat} {w : World} (hw : Wf env now w) {accs : List AccountInfo} {f d : Key}
    (hs : slotError w (slots env (.initializePool f d)) accs = none) (hk : RightKind env w accs (.initializePool f d)) :
    Throws (processInitializePool env w accs f d) (Reason env now w accs (.initializePool f d)) := by
  obtain ⟨P, r, rfl, f1, t1, hs⟩ := slotError_none hs
  obtain ⟨T, r, rfl, f2, t2, hs⟩ := slotError_none hs
  obtain ⟨V, r, rfl, f3, t3, hs⟩ := slotError_none hs
  obtain ⟨Y, r, rfl, f4, t4, hs⟩ := slotError_none hs
  obtain ⟨A, r, rfl, f5, t5, hs⟩ := slotError_none hs
  obtain ⟨R, r, rfl, f6, t6, hs⟩ := slotError_none hs
  obtain ⟨K, r, rfl, f7, t7, hs⟩ := slotError_none hs
  obtain ⟨Z, r, rfl, f8, t8, hs⟩ := slotError_none hs
  unfold processInitializePool
  refine throws_step ((nextWithOwner_take _ _ _).trans t1) (throws_step ((nextWithOwner_take _ _ _).trans t2)
    (throws_step ((nextUninitialized_take _ _).trans t3) (throws_step ((nextSigner_take _ _).trans t4)
    (throws_step ((nextSigner_take _ _).trans t5) (throws_step ((nextWithKey_take _ _ _).trans t6)
    (throws_step ((nextWithKey_take _ _ _).trans t7) (throws_step ((nextWithKey_take _ _ _).trans t8) ?_)))))))
  dsimp only
  refine throws_bind (throws_ensure fun h => ?_) fun _ hlen => ?_
  · exact .inr (.inr (.inr (.inr (.inr (.inl ⟨P, rfl, h⟩)))))
  have hlen := ensure_ok' hlen
  have hload : ∃ p, loadPool env (w P.key) = .ok p ∧ ((∃ q, PoolAt env w P.key q) ∨ p = Pool.zero) := by
    rcases hk.pool P.key rfl with ⟨p, hp⟩ | ⟨-, hz⟩ | ⟨o, ho⟩
    · exact ⟨p, loadPool_at hw hp, .inl ⟨p, hp⟩⟩
    · refine ⟨Pool.zero, ?_, .inr rfl⟩
      rw [loadPool_ok]
      exact ⟨hlen ▸ Nat.le_refl _, by rw [hz]; rfl⟩
    · cases ho
  obtain ⟨p, hl, hcase⟩ := hload
  refine throws_step hl ?_
  refine throws_bind (throws_ensure fun h => ?_) fun _ _ => ?_
  · rcases hcase with ⟨q, hq⟩ | rfl
    · exact ⟨⟨f, d, rfl⟩, P.key, q, rfl, hq, trivial⟩
    · exact absurd (by decide) h
  refine throws_bind (throws_okOr fun h => .inl ⟨P, T, rfl, rfl, h⟩) fun ⟨k, b⟩ hkb => ?_
  dsimp only
  refine throws_bind (throws_ensure fun h => ?_) fun _ _ => ?_
  · refine .inr (.inr (.inr (.inr (.inr (.inr ⟨P, T, V, rfl, rfl, rfl, ?_⟩)))))
    rw [okOr_ok.mp hkb]
    intro e
    exact h (Option.some.inj e).symm
  refine throws_bind (throws_ensure fun h => ⟨P.key, rfl, .inl ?_⟩) fun _ _ => ?_
  · by_cases h1 : Y.key = P.key
    · exact ⟨f, d, Y, rfl, by simp, h1⟩
    · exact ⟨f, d, V, rfl, by simp, Decidable.byContradiction fun h2 => h ⟨h1, h2⟩⟩
  refine throws_bind (createAccount_throws (.inl ⟨f, d, rfl⟩) fun h => ⟨.inl ⟨f, d, rfl⟩, ?_⟩) fun _ _ => ?_
  · by_cases h1 : Y.isWritable = true
    · exact ⟨V, by simp, by
        cases hv : V.isWritable
        · rfl
        · exact absurd ⟨f4, h1, hv⟩ h⟩
    · exact ⟨Y, by simp, by simpa using h1⟩
  refine throws_bind (throws_ensure fun h => ⟨P.key, rfl, .inl ?_⟩) fun _ _ => ?_
  · by_cases h1 : T.key = P.key
    · exact ⟨f, d, T, rfl, by simp, h1⟩
    · by_cases h2 : A.key = P.key
      · exact ⟨f, d, A, rfl, by simp, h2⟩
      · exact ⟨f, d, R, rfl, by simp, Decidable.byContradiction fun h3 => h ⟨h1, h2, h3⟩⟩
  exact throws_bind (initializeTokenAccount_throws (.inl ⟨f, d, rfl⟩)) fun _ _ => throws_pure

theorem initializeMining_throws {now : Nat} {w : World} {accs : List AccountInfo} {o : Key}
    (hs : slotError w (slots env (.initializeMining o)) accs = none) :
    Throws (processInitializeMining env w accs o) (Reason env now w accs (.initializeMining o)) := by
  obtain ⟨P, r, rfl, f1, t1, hs⟩ := slotError_none hs
  obtain ⟨M, r, rfl, f2, t2, hs⟩ := slotError_none hs
  obtain ⟨Y, r, rfl, f3, t3, hs⟩ := slotError_none hs
  obtain ⟨Z, r, rfl, f4, t4, hs⟩ := slotError_none hs
  unfold processInitializeMining
  refine throws_step ((nextWithOwner_take _ _ _).trans t1) (throws_step ((nextUninitialized_take _ _).trans t2)
    (throws_step ((nextSigner_take _ _).trans t3) (throws_step ((nextWithKey_take _ _ _).trans t4) ?_)))
  dsimp only
  refine throws_bind (throws_okOr fun h => .inl ⟨P, rfl, h⟩) fun ⟨k, b⟩ hkb => ?_
  dsimp only
  refine throws_bind (throws_ensure fun h => ?_) fun _ _ => ?_
  · refine .inr (.inr (.inr (.inr (.inr ⟨P, M, rfl, rfl, ?_⟩))))
    rw [okOr_ok.mp hkb]
    intro e
    exact h (Option.some.inj e).symm
  refine throws_bind (createAccount_throws (.inr ⟨o, rfl⟩) fun h => ⟨.inr (.inl ⟨o, rfl⟩), ?_⟩) fun _ _ => throws_pure
  by_cases h1 : Y.isWritable = true
  · exact ⟨M, by simp, by
      cases hv : M.isWritable
      · rfl
      · exact absurd ⟨f3, h1, hv⟩ h⟩
  · exact ⟨Y, by simp, by simpa using h1⟩

theorem vault_none {now : Nat} {w : World} (hw : Wf env now w) {P : Key} {p : Pool} (_ : PoolAt env w P p) :
    ∃ v, env.vaultAddr P p.rewardMint p.bump = some v := by
  obtain ⟨v, h⟩ := (poolAt_good hw ‹_›).vault
  exact ⟨v, env.findVault_spec _ _ _ _ h⟩

theorem fillVault_throws {now : Nat} {w : World} (hw : Wf env now w) {accs : List AccountInfo} {x y : Nat}
    (hs : slotError w (slots env (.fillVault x y)) accs = none) (hk : RightKind env w accs (.fillVault x y)) :
    Throws (processFillVault env now w accs x y) (Reason env now w accs (.fillVault x y)) := by
  obtain ⟨P, r, rfl, f1, t1, hs⟩ := slotError_none hs
  obtain ⟨T, r, rfl, f2, t2, hs⟩ := slotError_none hs
  obtain ⟨V, r, rfl, f3, t3, hs⟩ := slotError_none hs
  obtain ⟨A, r, rfl, f4, t4, hs⟩ := slotError_none hs
  obtain ⟨R, r, rfl, f5, t5, hs⟩ := slotError_none hs
  obtain ⟨K, r, rfl, f6, t6, hs⟩ := slotError_none hs
  obtain ⟨p, hp⟩ : ∃ p, PoolAt env w P.key p := by
    rcases hk.pool P.key rfl with h | ⟨⟨_, _, h⟩, _⟩ | ⟨_, h⟩
    · exact h
    · cases h
    · cases h
  unfold processFillVault
  refine throws_step ((nextWithOwner_take _ _ _).trans t1) (throws_step ((nextWithOwner_take _ _ _).trans t2)
    (throws_step ((nextWithOwner_take _ _ _).trans t3) (throws_step ((nextSigner_take _ _).trans t4)
    (throws_step ((nextWithOwner_take _ _ _).trans t5) (throws_step ((nextWithKey_take _ _ _).trans t6) ?_)))))
  dsimp only
  refine throws_bind (throws_ensure fun h => ⟨y, by simpa using h⟩) fun _ _ => ?_
  refine throws_step (loadPool_at hw hp) ?_
  refine throws_bind (throws_ensure fun h => .inl ⟨P.key, p, rfl, hp, fun e => h (Option.some.inj e)⟩) fun _ _ => ?_
  have hv : ∀ {o}, env.vaultAddr P.key T.key p.bump = o → o ≠ some V.key →
      WrongVault env w (P :: T :: V :: A :: R :: K :: r) (.fillVault x y) := fun h h' =>
    ⟨.inr ⟨x, y, rfl⟩, P.key, p, rfl, hp, T, V, rfl, rfl, h ▸ h'⟩
  refine throws_bind (throws_okOr fun h => .inr (.inr (hv h nofun))) fun k hk => ?_
  refine throws_bind (throws_ensure fun h => .inr (.inr (.inr (.inl (hv (okOr_ok.mp hk) fun e => h (Option.some.inj e).symm)))))
    fun _ _ => ?_
  refine throws_bind (throws_ensure fun h => ⟨x, y, rfl, ?_⟩) fun _ _ => ?_
  · rw [← bod_eq_midnight, ← bod_eq_midnight]; exact Decidable.of_not_not h
  have over : midnight y < p.distributionEndsAt ∨ 2 ^ 64 ≤ y ∨ 2 ^ 64 ≤ p.tokensAvailable + x →
      Reason env now w (P :: T :: V :: A :: R :: K :: r) (.fillVault x y) mathOverflow := fun h => ⟨P.key, p, rfl, hp, h⟩
  refine throws_bind ?_ fun d hd => ?_
  · unfold safeSub
    split
    · exact throws_ok
    · rename_i h
      exact throws_error (over (.inl (by rw [← bod_eq_midnight]; omega)))
  rw [safeSub_ok] at hd
  refine throws_bind ?_ fun _ _ => throws_bind ?_ fun _ _ => ?_
  · unfold safeAdd64
    split
    · exact throws_ok
    · rename_i h
      refine throws_error (over (.inr (.inl ?_)))
      have : bod y ≤ y := Nat.sub_le _ _
      unfold U64 at h
      omega
  · unfold safeAdd64
    split
    · exact throws_ok
    · rename_i h
      exact throws_error (over (.inr (.inr (by unfold U64 at h; omega))))
  refine throws_bind (throws_ensure fun h => ⟨P.key, rfl, .inr ⟨x, y, rfl, ?_⟩⟩) fun _ _ => ?_
  · have n1 : R.key ≠ P.key := fun e => env.program_ne_token (by rw [← f1, ← e]; exact f5)
    have n2 : V.key ≠ P.key := fun e => env.program_ne_token (by rw [← f1, ← e]; exact f3)
    exact congrArg some (Decidable.byContradiction fun h3 => h ⟨n1, n2, h3⟩)
  refine splTransfer_throws (.inr rfl) fun h => ⟨.inr (.inr rfl), ?_⟩
  by_cases h1 : R.isWritable = true
  · exact ⟨V, by simp, by
      cases hv : V.isWritable
      · rfl
      · exact absurd ⟨f4, h1, hv⟩ h⟩
  · exact ⟨R, by simp, by simpa using h1⟩

/-- The pool and the minings of a stake operation. -/
theorem Spec.RightKind.stake {w : World} {accs : List AccountInfo} {i : Ix} (hk : RightKind env w accs i)
    (hi : ∀ o, i ≠ .initializeMining o) (hi' : ∀ f d, i ≠ .initializePool f d) {P M : Key} (h1 : poolArg accs i = some P)
    (h2 : miningArg accs i = some M) : (∃ p, PoolAt env w P p) ∧ ∃ m, Proper env w M m := by
  constructor
  · rcases hk.pool P h1 with h | ⟨⟨_, _, h⟩, _⟩ | ⟨_, h⟩
    · exact h
    · exact absurd h (hi' _ _)
    · exact absurd h (hi _)
  · rcases hk.mining M h2 with h | ⟨_, h⟩
    · exact h
    · exact absurd h (hi _)

theorem AccessErr.reason {now : Nat} {w : World} {accs : List AccountInfo} {i : Ix} {P M A o : Key} {p : Pool} {m : Mining}
    {e : Err} (h : AccessErr p m o P A e) (hi : i ≠ .closeMining) (hp : PoolAt env w P p) (hm : MiningAt env w M m)
    (h1 : poolArg accs i = some P) (h2 : miningArg accs i = some M) (h3 : stakerArg accs i = some o)
    (h4 : authorityArg accs i = some A) (h5 : authorityOf p i = p.depositAuthority) : Reason env now w accs i e := by
  rcases h with ⟨he, h⟩ | ⟨rfl, h⟩
  · have : WrongStaker env w accs i ∨ WrongPool env w accs i := by
      rcases h with h | h
      · exact .inl ⟨M, m, h2, hm, by rw [h3]; intro e; exact h (Option.some.inj e)⟩
      · exact .inr ⟨hi, M, m, h2, hm, by rw [h1]; intro e; exact h (Option.some.inj e)⟩
    rcases he with rfl | rfl
    · exact this.elim .inl fun h => .inr (.inl h)
    · exact this.elim (fun h => .inr (.inl h)) fun h => .inr (.inr (.inl h))
  · exact .inl ⟨P, p, h1, hp, by show _ ≠ some (authorityOf p i); rw [h4, h5]; intro e; exact h (Option.some.inj e)⟩

theorem DelegateErr.reason {now : Nat} {w : World} {accs : List AccountInfo} {i : Ix} {P M D x : Key} {d : Mining}
    {e : Err} (h : DelegateErr d M D P x e) (hd : MiningAt env w D d)
    (h1 : poolArg accs i = some P) (h2 : miningArg accs i = some M) (h3 : delegateArg accs i = some D)
    (h4 : delegateWallet i = some x) : Reason env now w accs i e := by
  obtain ⟨he, hne, h⟩ := h
  have : WrongDelegate env w accs i := by
    refine ⟨D, d, h3, hd, by rw [h2]; intro e; exact hne (Option.some.inj e), ?_⟩
    rcases h with h | h
    · exact .inl (by rw [h4]; intro e; exact h (Option.some.inj e))
    · exact .inr (by rw [h1]; intro e; exact h (Option.some.inj e))
  rcases he with rfl | rfl <;> exact this

theorem Arith.reason {now : Nat} {w : World} {accs : List AccountInfo} {i : Ix} {e : Err} (h : Arith e)
    (hi : refreshes i = true) : Reason env now w accs i e := by
  rcases h with rfl | rfl
  · cases i <;> first | trivial | cases hi
  · exact hi

/-- The common part of deposit, withdrawal and extension. -/
theorem stake_throws {now : Nat} {w : World} (hw : Wf env now w) {accs : List AccountInfo} {i : Ix} {o x : Key}
    {f : Pool → Mining → Option Mining → Res (Pool × Mining × Option Mining)}
    (hslots : slots env i = [.owned env.programId, .owned env.programId, .signer, .owned env.programId])
    (hs : slotError w (slots env i) accs = none) (hk : RightKind env w accs i)
    (hi : ∀ P M A D r, accs = P :: M :: A :: D :: r → poolArg accs i = some P.key ∧ miningArg accs i = some M.key ∧
      stakerArg accs i = some o ∧ authorityArg accs i = some A.key ∧ delegateArg accs i = some D.key)
    (hx : delegateWallet i = some x) (ha : ∀ p, authorityOf p i = p.depositAuthority) (hr : refreshes i = true)
    (hf : ∀ P M p m d, poolArg accs i = some P → miningArg accs i = some M → PoolAt env w P p → MiningAt env w M m →
      PoolOk now p → MiningOk m → Throws (f p m d) (Reason env now w accs i)) :
    Throws (do
      let (rewardPool, accs) ← nextWithOwner w env.programId accs
      let (mining, accs) ← nextWithOwner w env.programId accs
      let (depositAuthority, accs) ← nextSigner accs
      let (delegateMining, _) ← nextWithOwner w env.programId accs
      ensure (mining.key ≠ rewardPool.key) .panic
      let (p, m) ← getPoolAndMining env w o mining rewardPool depositAuthority
      let d ← loadDelegate env w delegateMining mining x rewardPool.key
      let (p, m, d) ← f p m d
      pure (putDelegate env (putMining env (putPool w rewardPool.key p) mining.key m) delegateMining.key d))
      (Reason env now w accs i) := by
  rw [hslots] at hs
  obtain ⟨P, r, rfl, f1, t1, hs⟩ := slotError_none hs
  obtain ⟨M, r, rfl, f2, t2, hs⟩ := slotError_none hs
  obtain ⟨A, r, rfl, f3, t3, hs⟩ := slotError_none hs
  obtain ⟨D, r, rfl, f4, t4, hs⟩ := slotError_none hs
  obtain ⟨h1, h2, h3, h4, h5⟩ := hi _ _ _ _ _ rfl
  have hne : ∀ o, i ≠ .initializeMining o := by rintro o rfl; cases hr
  have hne' : ∀ a b, i ≠ .initializePool a b := by rintro a b rfl; cases hr
  have hne3 : i ≠ .closeMining := by rintro rfl; cases hx
  obtain ⟨⟨p, hp⟩, m, hm⟩ := hk.stake hne hne' h1 h2
  obtain ⟨d, hd⟩ := hk.delegate _ h5
  refine throws_step ((nextWithOwner_take _ _ _).trans t1) (throws_step ((nextWithOwner_take _ _ _).trans t2)
    (throws_step ((nextSigner_take _ _).trans t3) (throws_step ((nextWithOwner_take _ _ _).trans t4) ?_)))
  dsimp only
  refine throws_bind (throws_ensure fun h => absurd (proper_ne hp hm) h) fun _ _ => ?_
  refine throws_bind ((getPoolAndMining_throws hw hp hm).mono fun e he => he.reason hne3 hp hm.1 h1 h2 h3 h4 (ha p))
    fun y hy => ?_
  obtain rfl := getPoolAndMining_eq hw hp hm hy
  dsimp only
  refine throws_bind ((loadDelegate_throws hw hp hd).mono fun e he => he.reason hd.1 h1 h2 h5 hx) fun _ _ => ?_
  exact throws_bind (hf _ _ _ _ _ h1 h2 hp hm.1 (poolAt_good hw hp).ok (proper_init hw hm).1) fun _ _ => throws_pure

theorem deposit_reason {now : Nat} {w : World} (hw : Wf env now w) {accs : List AccountInfo} {a : Nat} {l : LockupPeriod}
    {o x : Key} (hs : slotError w (slots env (.depositMining a l o x)) accs = none)
    (hk : RightKind env w accs (.depositMining a l o x)) :
    Throws (processDepositMining env now w accs a l o x) (Reason env now w accs (.depositMining a l o x)) := by
  refine stake_throws (f := fun p m d => p.deposit env.caps now m a l d) hw rfl hs hk ?_ rfl (fun _ => rfl) rfl ?_
  · rintro P M A D r rfl; exact ⟨rfl, rfl, rfl, rfl, rfl⟩
  · intro P M p m d _ _ _ _ _ _
    refine deposit_throws.mono fun e he => ?_
    rcases he with he | ⟨rfl, rfl, rfl⟩ | ⟨rfl, h⟩
    · exact he.reason rfl
    · exact .inl ⟨o, x, rfl⟩
    · exact .inr h

theorem withdraw_reason {now : Nat} {w : World} (hw : Wf env now w) {accs : List AccountInfo} {a : Nat} {o x : Key}
    (hs : slotError w (slots env (.withdrawMining a o x)) accs = none) (hk : RightKind env w accs (.withdrawMining a o x)) :
    Throws (processWithdrawMining env now w accs a o x) (Reason env now w accs (.withdrawMining a o x)) := by
  refine stake_throws (f := fun p m d => p.withdraw now m a d) hw rfl hs hk ?_ rfl (fun _ => rfl) rfl ?_
  · rintro P M A D r rfl; exact ⟨rfl, rfl, rfl, rfl, rfl⟩
  · intro P M p m d _ _ _ _ _ _
    exact withdraw_throws.mono fun e he => he.reason rfl

theorem extend_reason {now : Nat} {w : World} (hw : Wf env now w) {accs : List AccountInfo} {l l' : LockupPeriod}
    {ts b a : Nat} {o x : Key} (hs : slotError w (slots env (.extendStake l l' ts b a o x)) accs = none)
    (hk : RightKind env w accs (.extendStake l l' ts b a o x)) :
    Throws (processExtendStake env now w accs l l' ts b a o x) (Reason env now w accs (.extendStake l l' ts b a o x)) := by
  refine stake_throws (f := fun p m d => p.extend env.caps now m l l' ts b a d) hw rfl hs hk ?_ rfl (fun _ => rfl) rfl ?_
  · rintro P M A D r rfl; exact ⟨rfl, rfl, rfl, rfl, rfl⟩
  · intro P M p m d h1 h2 hp hm ho hmo
    refine (extend_throws ho hmo).mono fun e he => ?_
    rcases he with he | ⟨rfl, h⟩ | ⟨rfl, h⟩ | ⟨rfl, h, h', h''⟩
    · exact he.reason rfl
    · exact .inr ⟨l, l', ts, b, a, o, x, rfl, h⟩
    · exact .inr h
    · exact ⟨h, h', M, m, h2, hm, h''⟩

theorem changeDelegate_reason {now : Nat} {w : World} (hw : Wf env now w) {accs : List AccountInfo} {a : Nat} {x : Key}
    (hs : slotError w (slots env (.changeDelegate a x)) accs = none) (hk : RightKind env w accs (.changeDelegate a x)) :
    Throws (processChangeDelegate env now w accs a x) (Reason env now w accs (.changeDelegate a x)) := by
  obtain ⟨P, r, rfl, f1, t1, hs⟩ := slotError_none hs
  obtain ⟨M, r, rfl, f2, t2, hs⟩ := slotError_none hs
  obtain ⟨A, r, rfl, f3, t3, hs⟩ := slotError_none hs
  obtain ⟨O, r, rfl, f4, t4, hs⟩ := slotError_none hs
  obtain ⟨X, r, rfl, f5, t5, hs⟩ := slotError_none hs
  obtain ⟨Y, r, rfl, f6, t6, hs⟩ := slotError_none hs
  obtain ⟨⟨p, hp⟩, m, hm⟩ := hk.stake nofun nofun (P := P.key) (M := M.key) rfl rfl
  obtain ⟨d, hd⟩ := hk.delegate Y.key rfl
  obtain ⟨d', hd'⟩ := hk.oldDelegate X.key rfl
  unfold processChangeDelegate
  refine throws_step ((nextWithOwner_take _ _ _).trans t1) (throws_step ((nextWithOwner_take _ _ _).trans t2)
    (throws_step ((nextSigner_take _ _).trans t3) (throws_step ((nextSigner_take _ _).trans t4)
    (throws_step ((nextWithOwner_take _ _ _).trans t5) (throws_step ((nextWithOwner_take _ _ _).trans t6) ?_)))))
  dsimp only
  refine throws_bind (throws_ensure fun h => ⟨congrArg some (Decidable.of_not_not h), a, x, rfl⟩) fun _ _ => ?_
  refine throws_bind (throws_ensure fun h => absurd (proper_ne hp hm) h) fun _ _ => ?_
  refine throws_bind ((getPoolAndMining_throws hw hp hm).mono fun e he => he.reason nofun hp hm.1 rfl rfl rfl rfl rfl)
    fun y hy => ?_
  obtain rfl := getPoolAndMining_eq hw hp hm hy
  dsimp only
  refine throws_bind ((loadDelegate_throws hw hp hd).mono fun e he => he.reason hd.1 rfl rfl rfl rfl) fun _ _ => ?_
  refine throws_bind (refresh_throws.mono fun e he => he.reason rfl) fun _ _ => ?_
  refine throws_bind (loadOldDelegate_throws hw hp hd') fun _ _ => ?_
  exact throws_bind (changeDelegate_throws.mono fun e he => he.reason rfl) fun _ _ => throws_pure

theorem slash_reason {now : Nat} {w : World} (hw : Wf env now w) {accs : List AccountInfo} {o : Key} {n k : Nat}
    {ts : Option Nat} (hs : slotError w (slots env (.slash o n k ts)) accs = none)
    (hk : RightKind env w accs (.slash o n k ts)) :
    Throws (processSlash env now w accs o n k ts) (Reason env now w accs (.slash o n k ts)) := by
  obtain ⟨A, r, rfl, f1, t1, hs⟩ := slotError_none hs
  obtain ⟨P, r, rfl, f2, t2, hs⟩ := slotError_none hs
  obtain ⟨M, r, rfl, f3, t3, hs⟩ := slotError_none hs
  obtain ⟨⟨p, hp⟩, m, hm⟩ := hk.stake nofun nofun (P := P.key) (M := M.key) rfl rfl
  unfold processSlash
  refine throws_step ((nextSigner_take _ _).trans t1) (throws_step ((nextWithOwner_take _ _ _).trans t2)
    (throws_step ((nextWithOwner_take _ _ _).trans t3) ?_))
  dsimp only
  refine throws_bind (throws_ensure fun h => absurd (proper_ne hp hm) h) fun _ _ => ?_
  refine throws_bind ((getPoolAndMining_throws hw hp hm).mono fun e he => he.reason nofun hp hm.1 rfl rfl rfl rfl rfl)
    fun y hy => ?_
  obtain rfl := getPoolAndMining_eq hw hp hm hy
  dsimp only
  refine throws_bind ((slash_throws (poolAt_good hw hp).ok (proper_init hw hm).1).mono fun e he => ?_) fun _ _ => throws_pure
  rcases he with he | ⟨rfl, t, rfl, h⟩
  · exact he.reason rfl
  · rcases h with h | h | h
    · exact .inl h
    · exact .inr (.inl ⟨M.key, m, rfl, hm.1, h⟩)
    · exact .inr (.inr ⟨P.key, p, rfl, hp, h⟩)

theorem decrease_reason {now : Nat} {w : World} (hw : Wf env now w) {accs : List AccountInfo} {o : Key} {n : Nat}
    (hs : slotError w (slots env (.decreaseRewards o n)) accs = none) (hk : RightKind env w accs (.decreaseRewards o n)) :
    Throws (processDecreaseRewards env w accs o n) (Reason env now w accs (.decreaseRewards o n)) := by
  obtain ⟨A, r, rfl, f1, t1, hs⟩ := slotError_none hs
  obtain ⟨P, r, rfl, f2, t2, hs⟩ := slotError_none hs
  obtain ⟨M, r, rfl, f3, t3, hs⟩ := slotError_none hs
  obtain ⟨⟨p, hp⟩, m, hm⟩ := hk.stake nofun nofun (P := P.key) (M := M.key) rfl rfl
  unfold processDecreaseRewards
  refine throws_step ((nextSigner_take _ _).trans t1) (throws_step ((nextWithOwner_take _ _ _).trans t2)
    (throws_step ((nextWithOwner_take _ _ _).trans t3) ?_))
  dsimp only
  refine throws_bind (throws_ensure fun h => absurd (proper_ne hp hm) h) fun _ _ => ?_
  refine throws_bind ((getPoolAndMining_throws hw hp hm).mono fun e he => he.reason nofun hp hm.1 rfl rfl rfl rfl rfl)
    fun y hy => ?_
  obtain rfl := getPoolAndMining_eq hw hp hm hy
  dsimp only
  refine throws_bind ?_ fun _ _ => throws_pure
  unfold Mining.decreaseRewards
  split
  · exact throws_ok
  · refine throws_bind (throws_ensure fun h => ⟨o, n, rfl, M.key, m, rfl, hm.1, Decidable.of_not_not h⟩) fun _ h => ?_
    have := ensure_ok' h
    refine throws_bind ?_ fun _ _ => throws_pure
    unfold safeSub
    rw [if_pos (by omega)]
    exact throws_ok

theorem distribute_reason {now : Nat} {w : World} (hw : Wf env now w) {accs : List AccountInfo}
    (hfit : ∀ k p, PoolAt env w k p → p.tokensAvailable < 2 ^ 64)
    (hs : slotError w (slots env .distributeRewards) accs = none) (hk : RightKind env w accs .distributeRewards) :
    Throws (processDistributeRewards env now w accs) (Reason env now w accs .distributeRewards) := by
  obtain ⟨P, r, rfl, f1, t1, hs⟩ := slotError_none hs
  obtain ⟨A, r, rfl, f2, t2, hs⟩ := slotError_none hs
  obtain ⟨p, hp⟩ : ∃ p, PoolAt env w P.key p := by
    rcases hk.pool P.key rfl with h | ⟨⟨_, _, h⟩, _⟩ | ⟨_, h⟩
    · exact h
    · cases h
    · cases h
  unfold processDistributeRewards
  refine throws_step ((nextWithOwner_take _ _ _).trans t1) (throws_step ((nextSigner_take _ _).trans t2) ?_)
  dsimp only
  refine throws_step (loadPool_at hw hp) ?_
  have over : Reason env now w (P :: A :: r) .distributeRewards mathOverflow := trivial
  refine throws_bind ?_ fun _ _ => ?_
  · unfold Pool.rewardsToDistribute
    dsimp only
    split
    · exact throws_ok
    · refine throws_bind (throws_mul128 over _ _) fun a ha => throws_bind (throws_div over _ _) fun b hb =>
        throws_bind (throws_div over _ _) fun c hc => ?_
      have hlt := hfit _ _ hp
      unfold u64TryFrom
      rw [if_pos ?_]
      · exact throws_ok
      · unfold safeDiv at hb hc
        split at hb
        · cases hb
        split at hc
        · cases hc
        cases hb; cases hc
        have : a = p.tokensAvailable * PRECISION := by
          rw [safeMul128_ok] at ha; exact ha.2
        subst this
        have h1 : p.tokensAvailable * PRECISION / ((p.distributionEndsAt - now) / DAY) ≤ p.tokensAvailable * PRECISION :=
          Nat.div_le_self _ _
        have h2 := Nat.div_le_div_right (c := PRECISION) h1
        rw [Nat.mul_div_cancel _ (by decide : 0 < PRECISION)] at h2
        unfold U64
        omega
  refine throws_bind (throws_ensure fun h => .inl ⟨P.key, p, rfl, hp, fun e => h (Option.some.inj e)⟩) fun _ _ => ?_
  refine throws_bind ?_ fun _ _ => throws_pure
  unfold Pool.distribute
  refine throws_bind (throws_ensure fun h => ⟨rfl, P.key, p, rfl, hp, Decidable.of_not_not h⟩) fun _ _ => ?_
  refine throws_bind (poolConsume_throws.mono fun e he => he ▸ over) fun _ _ => ?_
  split
  · exact throws_pure
  · refine throws_bind ?_ fun _ _ => throws_bind (throws_sub over _ _) fun _ _ => throws_pure
    unfold Pool.updateIndex
    exact throws_bind (throws_mul128 over _ _) fun _ _ => throws_bind (throws_div over _ _) fun _ _ =>
      throws_bind (throws_add128 over _ _) fun _ _ => throws_pure

theorem claim_reason {now : Nat} {w : World} (hw : Wf env now w) {accs : List AccountInfo}
    (hs : slotError w (slots env .claim) accs = none) (hk : RightKind env w accs .claim) :
    Throws (processClaim env now w accs) (Reason env now w accs .claim) := by
  obtain ⟨P, r, rfl, f1, t1, hs⟩ := slotError_none hs
  obtain ⟨T, r, rfl, f2, t2, hs⟩ := slotError_none hs
  obtain ⟨V, r, rfl, f3, t3, hs⟩ := slotError_none hs
  obtain ⟨M, r, rfl, f4, t4, hs⟩ := slotError_none hs
  obtain ⟨O, r, rfl, f5, t5, hs⟩ := slotError_none hs
  obtain ⟨A, r, rfl, f6, t6, hs⟩ := slotError_none hs
  obtain ⟨U, r, rfl, f7, t7, hs⟩ := slotError_none hs
  obtain ⟨K, r, rfl, f8, t8, hs⟩ := slotError_none hs
  obtain ⟨⟨p, hp⟩, m, hm⟩ := hk.stake nofun nofun (P := P.key) (M := M.key) rfl rfl
  unfold processClaim
  refine throws_step ((nextWithOwner_take _ _ _).trans t1) (throws_step ((nextWithOwner_take _ _ _).trans t2)
    (throws_step ((nextWithOwner_take _ _ _).trans t3) (throws_step ((nextWithOwner_take _ _ _).trans t4)
    (throws_step ((nextSigner_take _ _).trans t5) (throws_step ((nextSigner_take _ _).trans t6)
    (throws_step ((nextWithOwner_take _ _ _).trans t7) (throws_step ((nextWithKey_take _ _ _).trans t8) ?_)))))))
  dsimp only
  refine throws_bind (throws_unpack _ (fun h => ⟨rfl, U, rfl, fun t ht => h t ht.2⟩) fun h => ⟨rfl, U, rfl, h⟩) fun u hu => ?_
  have hu' : TokenAt env w U.key u := ⟨f7, unpackToken_ok.mp hu⟩
  refine throws_bind (throws_ensure fun h => .inr (.inr (.inr (.inr (.inl
    ⟨rfl, U, u, rfl, hu', fun e => h (Option.some.inj e)⟩))))) fun _ _ => ?_
  refine throws_step (loadPool_at hw hp) ?_
  refine throws_bind (throws_ensure fun h => .inl ⟨P.key, p, rfl, hp, fun e => h (Option.some.inj e)⟩) fun _ _ => ?_
  refine throws_bind (throws_ensure fun h => absurd (proper_ne hp hm) h) fun _ _ => ?_
  refine throws_step (loadMining_at hw hm) ?_
  refine throws_bind (throws_ensure fun h => .inr (.inl ⟨M.key, m, rfl, hm.1, fun e => h (Option.some.inj e)⟩)) fun _ _ => ?_
  refine throws_bind (throws_ensure fun h => .inr (.inr (.inl ⟨nofun, M.key, m, rfl, hm.1, fun e => h (Option.some.inj e)⟩)))
    fun _ _ => ?_
  have hv : ∀ {o}, env.vaultAddr P.key T.key p.bump = o → o ≠ some V.key →
      WrongVault env w (P :: T :: V :: M :: O :: A :: U :: K :: r) .claim := fun h h' =>
    ⟨.inl rfl, P.key, p, rfl, hp, T, V, rfl, rfl, h ▸ h'⟩
  refine throws_bind (throws_okOr fun h => .inr (.inr (hv h nofun))) fun k hk => ?_
  refine throws_bind (throws_ensure fun h => .inr (.inr (.inr (.inl (hv (okOr_ok.mp hk) fun e => h (Option.some.inj e).symm)))))
    fun _ _ => ?_
  refine throws_bind (refresh_throws.mono fun e he => he.reason rfl) fun m1 _ => ?_
  split
  · refine throws_bind (splTransfer_throws (.inr rfl) fun h => ⟨.inr (.inr rfl), ?_⟩) fun _ _ => throws_pure
    by_cases h1 : V.isWritable = true
    · exact ⟨U, by simp, by
        cases hv : U.isWritable
        · rfl
        · exact absurd ⟨f6, h1, hv⟩ h⟩
    · exact ⟨V, by simp, by simpa using h1⟩
  · exact throws_bind throws_pure fun _ _ => throws_pure

theorem close_reason {now : Nat} {w : World} (hw : Wf env now w) {accs : List AccountInfo}
    (hs : slotError w (slots env .closeMining) accs = none) (hk : RightKind env w accs .closeMining) :
    Throws (processCloseMining env now w accs) (Reason env now w accs .closeMining) := by
  obtain ⟨M, r, rfl, f1, t1, hs⟩ := slotError_none hs
  obtain ⟨O, r, rfl, f2, t2, hs⟩ := slotError_none hs
  obtain ⟨G, r, rfl, f3, t3, hs⟩ := slotError_none hs
  obtain ⟨A, r, rfl, f4, t4, hs⟩ := slotError_none hs
  obtain ⟨P, r, rfl, f5, t5, hs⟩ := slotError_none hs
  obtain ⟨⟨p, hp⟩, m, hm⟩ := hk.stake nofun nofun (P := P.key) (M := M.key) rfl rfl
  unfold processCloseMining
  refine throws_step ((nextWithOwner_take _ _ _).trans t1) (throws_step ((nextSigner_take _ _).trans t2)
    (throws_step ((nextWithOwner_take _ _ _).trans t3) (throws_step ((nextSigner_take _ _).trans t4)
    (throws_step ((nextWithOwner_take _ _ _).trans t5) ?_))))
  dsimp only
  refine throws_step (loadPool_at hw hp) ?_
  refine throws_bind (throws_ensure fun h => .inl ⟨P.key, p, rfl, hp, fun e => h (Option.some.inj e)⟩) fun _ _ => ?_
  refine throws_bind (throws_ensure fun h => absurd (proper_ne hp hm) h) fun _ _ => ?_
  refine throws_step (loadMining_at hw hm) ?_
  refine throws_bind (throws_ensure fun h => .inr (.inl ⟨M.key, m, rfl, hm.1, fun e => h (Option.some.inj e)⟩)) fun _ _ => ?_
  refine throws_bind (refresh_throws.mono fun e he => he.reason rfl) fun m1 h1 => ?_
  obtain ⟨c, e1, -, -, -, -, h2, -⟩ := refresh_ok (poolAt_good hw hp).ok.history (proper_init hw hm).1.sorted h1
  have e2 : m1.stakeFromOthers = m.stakeFromOthers := by rw [e1]
  have e3 : m1.unclaimed = m.unclaimed + c := by rw [e1]
  refine throws_bind (throws_ensure fun h => ⟨rfl, M.key, m, rfl, hm.1, ?_⟩) fun _ _ => ?_
  · show 0 < m.stakeFromOthers
    rw [← e2]; exact Decidable.of_not_not h
  refine throws_bind (throws_ensure fun h => ⟨rfl, P.key, p, rfl, hp, M.key, m, rfl, hm.1, ?_⟩) fun _ _ => ?_
  · rw [e3] at h
    unfold PRECISION at h2
    omega
  exact throws_bind (throws_add trivial _ _) fun _ _ => throws_pure

/-- Once the list of accounts is fine, the error says what is wrong. -/
theorem process_reason {now : Nat} {w : World} (hw : Wf env now w) {accs : List AccountInfo} {i : Ix}
    (hfit : ∀ k p, PoolAt env w k p → p.tokensAvailable < 2 ^ 64) (hs : slotError w (slots env i) accs = none)
    (hk : RightKind env w accs i) : Throws (process env now w accs i) (Reason env now w accs i) := by
  cases i with
  | initializePool f d => exact throws_bind (initializePool_throws hw hs hk) fun _ _ => throws_pure
  | fillVault x y => exact throws_bind (fillVault_throws hw hs hk) fun _ _ => throws_pure
  | initializeMining o => exact throws_bind (initializeMining_throws hs) fun _ _ => throws_pure
  | depositMining a l o d => exact throws_bind (deposit_reason hw hs hk) fun _ _ => throws_pure
  | withdrawMining a o d => exact throws_bind (withdraw_reason hw hs hk) fun _ _ => throws_pure
  | claim => exact throws_bind (claim_reason hw hs hk) fun _ _ => throws_pure
  | extendStake l l' ts b a o d => exact throws_bind (extend_reason hw hs hk) fun _ _ => throws_pure
  | distributeRewards => exact throws_bind (distribute_reason hw hfit hs hk) fun _ _ => throws_pure
  | closeMining => exact throws_bind (close_reason hw hs hk) fun _ _ => throws_pure
  | changeDelegate a d => exact throws_bind (changeDelegate_reason hw hs hk) fun _ _ => throws_pure
  | slash o n k e => exact throws_bind (slash_reason hw hs hk) fun _ _ => throws_pure
  | decreaseRewards o n => exact throws_bind (decrease_reason hw hs hk) fun _ _ => throws_pure

end

end Verif
