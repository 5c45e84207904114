import Verif.Model.Processor
/-!
Inversion lemmas for the result monad, checked arithmetic and account parsing.
-/

namespace Verif

theorem res_bind_ok {α β : Type} {x : Res α} {f : α → Res β} {b : β} :
    (x >>= f) = .ok b ↔ ∃ a, x = .ok a ∧ f a = .ok b := by
  cases x with
  | error e => simp [bind, Except.bind]
  | ok a => simp [bind, Except.bind]

theorem res_pure_ok {α : Type} {a b : α} : (pure a : Res α) = .ok b ↔ a = b := by
  simp [pure, Except.pure]

theorem ensure_ok {c : Prop} [Decidable c] {e : Err} {u : Unit} : ensure c e = .ok u ↔ c := by
  unfold ensure; split <;> simp_all

theorem okOr_ok {α : Type} {o : Option α} {e : Err} {a : α} : okOr o e = .ok a ↔ o = some a := by
  cases o <;> simp [okOr]

theorem safeAdd64_ok {a b c : Nat} : safeAdd64 a b = .ok c ↔ a + b < U64 ∧ c = a + b := by
  unfold safeAdd64; grind

theorem safeMul64_ok {a b c : Nat} : safeMul64 a b = .ok c ↔ a * b < U64 ∧ c = a * b := by
  unfold safeMul64; grind

theorem safeSub_ok {a b c : Nat} : safeSub a b = .ok c ↔ b ≤ a ∧ c = a - b := by
  unfold safeSub; grind

theorem safeAdd128_ok {a b c : Nat} : safeAdd128 a b = .ok c ↔ a + b < U128 ∧ c = a + b := by
  unfold safeAdd128; grind

theorem safeMul128_ok {a b c : Nat} : safeMul128 a b = .ok c ↔ a * b < U128 ∧ c = a * b := by
  unfold safeMul128; grind

theorem safeDiv_ok {a b c : Nat} : safeDiv a b = .ok c ↔ b ≠ 0 ∧ c = a / b := by
  unfold safeDiv; grind

theorem u64TryFrom_ok {a c : Nat} : u64TryFrom a = .ok c ↔ a < U64 ∧ c = a := by
  unfold u64TryFrom; grind

theorem rawAdd64_ok {a b c : Nat} : rawAdd64 a b = .ok c ↔ a + b < U64 ∧ c = a + b := by
  unfold rawAdd64; grind

theorem assertKey_ok {a b : Key} {u : Unit} : assertKey a b = .ok u ↔ a = b := ensure_ok

theorem nextAcc_ok {accs : List AccountInfo} {a : AccountInfo} {r : List AccountInfo} :
    nextAcc accs = .ok (a, r) ↔ accs = a :: r := by
  unfold nextAcc; cases accs <;> simp

theorem nextWithOwner_ok {w : World} {o : Key} {accs : List AccountInfo} {a : AccountInfo} {r : List AccountInfo} :
    nextWithOwner w o accs = .ok (a, r) ↔ accs = a :: r ∧ (w a.key).owner = o := by
  unfold nextWithOwner
  cases accs with
  | nil => simp [nextAcc, res_bind_ok]
  | cons x xs =>
    simp only [nextAcc, res_bind_ok, ensure_ok, res_pure_ok, Except.ok.injEq, Prod.exists, Prod.mk.injEq,
      List.cons.injEq, exists_const]
    grind

theorem nextUninitialized_ok {w : World} {accs : List AccountInfo} {a : AccountInfo} {r : List AccountInfo} :
    nextUninitialized w accs = .ok (a, r) ↔ accs = a :: r ∧ (w a.key).content.allZero = true := by
  unfold nextUninitialized
  cases accs with
  | nil => simp [nextAcc, res_bind_ok]
  | cons x xs =>
    simp only [nextAcc, res_bind_ok, ensure_ok, res_pure_ok, Except.ok.injEq, Prod.exists, Prod.mk.injEq,
      List.cons.injEq, exists_const]
    grind

theorem nextWithKey_ok {k : Key} {accs : List AccountInfo} {a : AccountInfo} {r : List AccountInfo} :
    nextWithKey k accs = .ok (a, r) ↔ accs = a :: r ∧ a.key = k := by
  unfold nextWithKey
  cases accs with
  | nil => simp [nextAcc, res_bind_ok]
  | cons x xs =>
    simp only [nextAcc, res_bind_ok, ensure_ok, res_pure_ok, Except.ok.injEq, Prod.exists, Prod.mk.injEq,
      List.cons.injEq, exists_const]
    grind

theorem nextSigner_ok {accs : List AccountInfo} {a : AccountInfo} {r : List AccountInfo} :
    nextSigner accs = .ok (a, r) ↔ accs = a :: r ∧ a.isSigner = true := by
  unfold nextSigner
  cases accs with
  | nil => simp [nextAcc, res_bind_ok]
  | cons x xs =>
    simp only [nextAcc, res_bind_ok, ensure_ok, res_pure_ok, Except.ok.injEq, Prod.exists, Prod.mk.injEq,
      List.cons.injEq, exists_const]
    grind

theorem bod_le (t : Nat) : bod t ≤ t := Nat.sub_le _ _

theorem bod_mod (t : Nat) : bod t % DAY = 0 := by
  unfold bod DAY; omega

theorem bod_lt_add (t : Nat) : t < bod t + DAY := by
  unfold bod DAY; omega

theorem bod_mono {a b : Nat} (h : a ≤ b) : bod a ≤ bod b := by
  unfold bod DAY; omega

theorem bod_bod (t : Nat) : bod (bod t) = bod t := by
  unfold bod DAY; omega

/-- An aligned date after the beginning of the day is after every moment of the day. -/
theorem lt_of_bod_lt {t e : Nat} (he : e % DAY = 0) (h : bod t < e) : t < e := by
  unfold bod DAY at *; omega

theorem endTimestamp_ok {p : LockupPeriod} {ts e : Nat} :
    p.endTimestamp ts = .ok e ↔
      ∃ n, p.days = .ok n ∧ bod ts + DAY * n < U64 ∧ e = bod ts + DAY * n := by
  have key : ∀ n : Nat, rawAdd64 (bod ts) (DAY * n) = .ok e ↔
      ∃ k, (Except.ok n : Res Nat) = .ok k ∧ bod ts + DAY * k < U64 ∧ e = bod ts + DAY * k := by
    intro n
    rw [rawAdd64_ok]
    constructor
    · intro h; exact ⟨n, rfl, h⟩
    · rintro ⟨k, hk, h⟩; cases hk; exact h
  cases p
  · constructor
    · intro h; cases h
    · rintro ⟨_, h, _⟩; cases h
  · exact key 5
  · exact key 90
  · exact key 180
  · exact key 365

end Verif
