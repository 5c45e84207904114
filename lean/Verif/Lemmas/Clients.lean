import Verif.Model.Clients
import Verif.Spec.Codec
import Verif.Lemmas.Inversion
import Verif.Lemmas.Codec
/-!
Helper lemmas about account lists: which privileges the processors look at, and which accounts they change.
-/

namespace Verif

variable {env : Env}

/-- An account entry with every privilege. -/
def full (a : AccountInfo) : AccountInfo := { key := a.key, isSigner := true, isWritable := true }

theorem nextSigner_cons {a : AccountInfo} {r : List AccountInfo} (h : a.isSigner = true) :
    nextSigner (a :: r) = .ok (a, r) := by
  simp [nextSigner, nextAcc, ensure, h, bind, Except.bind, pure, Except.pure]

theorem createAccount_full {w : World} {p t : AccountInfo} {len : Nat} {o : Key} (h1 : p.isSigner = true)
    (h2 : p.isWritable = true) (h3 : t.isWritable = true) :
    createAccount env w p t len o = createAccount env w (full p) (full t) len o := by
  obtain ⟨pk, ps, pw⟩ := p
  obtain ⟨tk, ts, tw⟩ := t
  cases h1; cases h2; cases h3; rfl

theorem splTransfer_full {w : World} {s d a : AccountInfo} {n : Nat} (h1 : a.isSigner = true)
    (h2 : s.isWritable = true) (h3 : d.isWritable = true) :
    splTransfer env w s d a n = splTransfer env w (full s) (full d) (full a) n := by
  obtain ⟨sk, ss, sw⟩ := s
  obtain ⟨dk, ds, dw⟩ := d
  obtain ⟨ak, as, aw⟩ := a
  cases h1; cases h2; cases h3; rfl

theorem getPoolAndMining_full {w : World} {o : Key} {m p d : AccountInfo} :
    getPoolAndMining env w o m p d = getPoolAndMining env w o (full m) (full p) (full d) := rfl

theorem loadDelegate_full {w : World} {o k : Key} {m d : AccountInfo} :
    loadDelegate env w d m o k = loadDelegate env w (full d) (full m) o k := rfl

theorem loadOldDelegate_full {w : World} {k : Key} {m d : AccountInfo} :
    loadOldDelegate env w d m k = loadOldDelegate env w (full d) (full m) k := rfl

theorem nextWithOwner_bind {α : Type} {w : World} {o : Key} {a : AccountInfo} {r : List AccountInfo}
    {f : AccountInfo × List AccountInfo → Res α} :
    (nextWithOwner w o (a :: r) >>= f) =
      (ensure ((w a.key).owner = o) (.custom .invalidAccountOwner) >>= fun _ => f (a, r)) := by
  simp only [nextWithOwner, nextAcc]
  by_cases h : (w a.key).owner = o <;> simp [ensure, h, bind, Except.bind, pure, Except.pure]

theorem nextUninitialized_bind {α : Type} {w : World} {a : AccountInfo} {r : List AccountInfo}
    {f : AccountInfo × List AccountInfo → Res α} :
    (nextUninitialized w (a :: r) >>= f) =
      (ensure ((w a.key).content.allZero = true) .accountAlreadyInitialized >>= fun _ => f (a, r)) := by
  simp only [nextUninitialized, nextAcc]
  by_cases h : (w a.key).content.allZero = true <;> simp [ensure, h, bind, Except.bind, pure, Except.pure]

theorem nextWithKey_bind {α : Type} {k : Key} {a : AccountInfo} {r : List AccountInfo}
    {f : AccountInfo × List AccountInfo → Res α} :
    (nextWithKey k (a :: r) >>= f) = (ensure (a.key = k) .invalidArgument >>= fun _ => f (a, r)) := by
  simp only [nextWithKey, nextAcc]
  by_cases h : a.key = k <;> simp [ensure, h, bind, Except.bind, pure, Except.pure]

theorem nextSigner_bind {α : Type} {a : AccountInfo} {r : List AccountInfo}
    {f : AccountInfo × List AccountInfo → Res α} (h : a.isSigner = true) : (nextSigner (a :: r) >>= f) = f (a, r) := by
  rw [nextSigner_cons h]; rfl

theorem nextSigner_full {α : Type} {a : AccountInfo} {r : List AccountInfo}
    {f : AccountInfo × List AccountInfo → Res α} : (nextSigner (full a :: r) >>= f) = f (full a, r) := by
  rw [nextSigner_cons rfl]; rfl

theorem full_key {a : AccountInfo} : (full a).key = a.key := rfl

theorem initPool_full {w : World} {p m v y d r t s : AccountInfo} {f g : Key} (hy : y.isSigner = true)
    (hyw : y.isWritable = true) (hv : v.isWritable = true) (hd : d.isSigner = true) :
    processInitializePool env w [p, m, v, y, d, r, t, s] f g =
      processInitializePool env w [full p, full m, full v, full y, full d, full r, full t, full s] f g := by
  simp only [processInitializePool, nextWithOwner_bind, nextUninitialized_bind, nextWithKey_bind, nextSigner_bind hy,
    nextSigner_bind hd, nextSigner_full, full_key, createAccount_full hy hyw hv]
  rfl

theorem fillVault_full {now : Nat} {w : World} {p m v a s t : AccountInfo} {x y : Nat} (ha : a.isSigner = true)
    (hv : v.isWritable = true) (hs : s.isWritable = true) :
    processFillVault env now w [p, m, v, a, s, t] x y =
      processFillVault env now w [full p, full m, full v, full a, full s, full t] x y := by
  simp only [processFillVault, nextWithOwner_bind, nextWithKey_bind, nextSigner_bind ha, nextSigner_full, full_key,
    splTransfer_full ha hs hv]
  rfl

theorem initMining_full {w : World} {p m y s : AccountInfo} {o : Key} (hy : y.isSigner = true)
    (hyw : y.isWritable = true) (hm : m.isWritable = true) :
    processInitializeMining env w [p, m, y, s] o = processInitializeMining env w [full p, full m, full y, full s] o := by
  simp only [processInitializeMining, nextWithOwner_bind, nextUninitialized_bind, nextWithKey_bind, nextSigner_bind hy,
    nextSigner_full, full_key, createAccount_full hy hyw hm]
  rfl

theorem deposit_full {now : Nat} {w : World} {p m a d : AccountInfo} {x : Nat} {l : LockupPeriod} {o e : Key}
    (ha : a.isSigner = true) :
    processDepositMining env now w [p, m, a, d] x l o e =
      processDepositMining env now w [full p, full m, full a, full d] x l o e := by
  simp only [processDepositMining, nextWithOwner_bind, nextSigner_bind ha, nextSigner_full, full_key,
    ← getPoolAndMining_full, ← loadDelegate_full]
  rfl

theorem withdraw_full {now : Nat} {w : World} {p m a d : AccountInfo} {x : Nat} {o e : Key} (ha : a.isSigner = true) :
    processWithdrawMining env now w [p, m, a, d] x o e =
      processWithdrawMining env now w [full p, full m, full a, full d] x o e := by
  simp only [processWithdrawMining, nextWithOwner_bind, nextSigner_bind ha, nextSigner_full, full_key,
    ← getPoolAndMining_full, ← loadDelegate_full]
  rfl

theorem extend_full {now : Nat} {w : World} {p m a d : AccountInfo} {l l' : LockupPeriod} {ts b x : Nat} {o e : Key}
    (ha : a.isSigner = true) :
    processExtendStake env now w [p, m, a, d] l l' ts b x o e =
      processExtendStake env now w [full p, full m, full a, full d] l l' ts b x o e := by
  simp only [processExtendStake, nextWithOwner_bind, nextSigner_bind ha, nextSigner_full, full_key,
    ← getPoolAndMining_full, ← loadDelegate_full]
  rfl

theorem claim_full {now : Nat} {w : World} {p m v i o d u t : AccountInfo} (ho : o.isSigner = true)
    (hd : d.isSigner = true) (hv : v.isWritable = true) (hu : u.isWritable = true) :
    processClaim env now w [p, m, v, i, o, d, u, t] =
      processClaim env now w [full p, full m, full v, full i, full o, full d, full u, full t] := by
  simp only [processClaim, nextWithOwner_bind, nextWithKey_bind, nextSigner_bind ho, nextSigner_bind hd, nextSigner_full,
    full_key, splTransfer_full hd hv hu]
  rfl

theorem distribute_full {now : Nat} {w : World} {p a : AccountInfo} (ha : a.isSigner = true) :
    processDistributeRewards env now w [p, a] = processDistributeRewards env now w [full p, full a] := by
  simp only [processDistributeRewards, nextWithOwner_bind, nextSigner_bind ha, nextSigner_full, full_key]
  rfl

theorem close_full {now : Nat} {w : World} {m o t d p : AccountInfo} (ho : o.isSigner = true) (hd : d.isSigner = true) :
    processCloseMining env now w [m, o, t, d, p] =
      processCloseMining env now w [full m, full o, full t, full d, full p] := by
  simp only [processCloseMining, nextWithOwner_bind, nextSigner_bind ho, nextSigner_bind hd, nextSigner_full, full_key]
  rfl

theorem changeDelegate_full {now : Nat} {w : World} {p m d o x y : AccountInfo} {n : Nat} {e : Key}
    (ho : o.isSigner = true) (hd : d.isSigner = true) :
    processChangeDelegate env now w [p, m, d, o, x, y] n e =
      processChangeDelegate env now w [full p, full m, full d, full o, full x, full y] n e := by
  simp only [processChangeDelegate, nextWithOwner_bind, nextSigner_bind ho, nextSigner_bind hd, nextSigner_full,
    full_key, ← getPoolAndMining_full, ← loadDelegate_full, ← loadOldDelegate_full]
  rfl

theorem slash_full {now : Nat} {w : World} {d p m : AccountInfo} {o : Key} {x y : Nat} {e : Option Nat}
    (hd : d.isSigner = true) :
    processSlash env now w [d, p, m] o x y e = processSlash env now w [full d, full p, full m] o x y e := by
  simp only [processSlash, nextWithOwner_bind, nextSigner_bind hd, nextSigner_full, full_key, ← getPoolAndMining_full]
  rfl

theorem decrease_full {w : World} {d p m : AccountInfo} {o : Key} {x : Nat} (hd : d.isSigner = true) :
    processDecreaseRewards env w [d, p, m] o x = processDecreaseRewards env w [full d, full p, full m] o x := by
  simp only [processDecreaseRewards, nextWithOwner_bind, nextSigner_bind hd, nextSigner_full, full_key,
    ← getPoolAndMining_full]
  rfl

/-! ### Accounts a processor leaves alone -/

theorem set_apart {w : World} {k j : Key} {a : Account} (h : k ≠ j) : w.set j a k = w k := if_neg h

theorem putPool_apart {w : World} {k j : Key} {p : Pool} (h : k ≠ j) : putPool w j p k = w k := if_neg h

theorem putMining_apart {w : World} {k j : Key} {m : Mining} (h : k ≠ j) : putMining env w j m k = w k := if_neg h

theorem putDelegate_apart {w : World} {k j : Key} {m : Option Mining} (h : k ≠ j) : putDelegate env w j m k = w k := by
  cases m
  · rfl
  · exact putMining_apart h

theorem splTransfer_apart {w w' : World} {s d a : AccountInfo} {n : Nat} (h : splTransfer env w s d a n = .ok w')
    {k : Key} (hs : k ≠ s.key) (hd : k ≠ d.key) : w' k = w k := by
  obtain ⟨_, _, _, -, -, -, -, -, -, -, -, -, -, -, -, h⟩ := splTransfer_ok h
  rcases h with ⟨-, rfl⟩ | ⟨-, -, _, -, -, -, rfl⟩
  · rfl
  · rw [set_apart hd, set_apart hs]

theorem stake_apart {w : World} {P M D k : Key} {p : Pool} {m : Mining} {d : Option Mining} (hP : k ≠ P) (hM : k ≠ M)
    (hD : k ≠ D) : putDelegate env (putMining env (putPool w P p) M m) D d k = w k := by
  rw [putDelegate_apart hD, putMining_apart hM, putPool_apart hP]

/-- Positions of the accounts an instruction may change. -/
def changedAt : Ix → List Nat
  | .initializePool .. => [0, 2, 3]
  | .fillVault .. => [0, 2, 4]
  | .initializeMining .. => [1, 2]
  | .depositMining .. | .withdrawMining .. | .extendStake .. => [0, 1, 3]
  | .claim => [2, 3, 6]
  | .distributeRewards => [0]
  | .closeMining => [0, 2]
  | .changeDelegate .. => [0, 1, 4, 5]
  | .slash .. => [1, 2]
  | .decreaseRewards .. => [2]

theorem process_apart {now : Nat} {w w' : World} {accs : List AccountInfo} {i : Ix} {ret : Option Nat}
    (h : process env now w accs i = .ok (w', ret)) {k : Key}
    (hk : ∀ j ∈ changedAt i, ∀ a, accs[j]? = some a → k ≠ a.key) : w' k = w k := by
  cases i <;> simp only [process, res_bind_ok, res_pure_ok, Prod.exists, Prod.mk.injEq] at h
  case initializePool f d =>
    obtain ⟨_, h, rfl, -⟩ := h
    obtain ⟨_, _, _, _, _, _, _, _, _, _, _, w1, w2, rfl, -, -, -, -, -, -, -, -, -, -, -, -, -, h1, -, h2, rfl⟩ :=
      processInitializePool_ok h
    have a0 := hk 0 (by simp [changedAt]) _ rfl
    have a2 := hk 2 (by simp [changedAt]) _ rfl
    have a3 := hk 3 (by simp [changedAt]) _ rfl
    rw [putPool_apart a0, (initializeTokenAccount_ok.mp h2).2.2, set_apart a2, (createAccount_ok.mp h1).2.2.2.2.2,
      set_apart a2, set_apart a3]
  case fillVault r e =>
    obtain ⟨_, h, rfl, -⟩ := h
    obtain ⟨_, _, _, _, _, _, _, _, rfl, -, -, -, -, -, -, -, -, -, -, -, -, -, -, -, -, h⟩ := processFillVault_ok h
    rw [splTransfer_apart h (hk 4 (by simp [changedAt]) _ rfl) (hk 2 (by simp [changedAt]) _ rfl),
      putPool_apart (hk 0 (by simp [changedAt]) _ rfl)]
  case initializeMining o =>
    obtain ⟨_, h, rfl, -⟩ := h
    obtain ⟨_, _, _, _, _, _, w1, rfl, -, -, -, -, -, h1, rfl⟩ := processInitializeMining_ok h
    have a1 := hk 1 (by simp [changedAt]) _ rfl
    have a2 := hk 2 (by simp [changedAt]) _ rfl
    rw [putMining_apart a1, (createAccount_ok.mp h1).2.2.2.2.2, set_apart a1, set_apart a2]
  case depositMining =>
    obtain ⟨_, h, rfl, -⟩ := h
    obtain ⟨_, _, _, _, _, _, _, _, _, _, ⟨⟨_, rfl⟩, -, -, -, -, -, -, -⟩, -, rfl⟩ := processDepositMining_ok h
    exact stake_apart (hk 0 (by simp [changedAt]) _ rfl) (hk 1 (by simp [changedAt]) _ rfl)
      (hk 3 (by simp [changedAt]) _ rfl)
  case withdrawMining =>
    obtain ⟨_, h, rfl, -⟩ := h
    obtain ⟨_, _, _, _, _, _, _, _, _, _, ⟨⟨_, rfl⟩, -, -, -, -, -, -, -⟩, -, rfl⟩ := processWithdrawMining_ok h
    exact stake_apart (hk 0 (by simp [changedAt]) _ rfl) (hk 1 (by simp [changedAt]) _ rfl)
      (hk 3 (by simp [changedAt]) _ rfl)
  case claim =>
    obtain ⟨_, _, h, rfl, -⟩ := h
    obtain ⟨_, _, _, _, _, _, _, _, _, _, _, _, _, rfl, -, -, -, -, -, -, -, -, -, -, -, -, -, -, -, -, -, -, -, -, -, h⟩ :=
      processClaim_ok h
    have a3 := hk 3 (by simp [changedAt]) _ rfl
    rcases h with ⟨-, h⟩ | ⟨-, rfl⟩
    · rw [splTransfer_apart h (hk 2 (by simp [changedAt]) _ rfl) (hk 6 (by simp [changedAt]) _ rfl), putMining_apart a3]
    · exact putMining_apart a3
  case extendStake =>
    obtain ⟨_, h, rfl, -⟩ := h
    obtain ⟨_, _, _, _, _, _, _, _, _, _, ⟨⟨_, rfl⟩, -, -, -, -, -, -, -⟩, -, rfl⟩ := processExtendStake_ok h
    exact stake_apart (hk 0 (by simp [changedAt]) _ rfl) (hk 1 (by simp [changedAt]) _ rfl)
      (hk 3 (by simp [changedAt]) _ rfl)
  case distributeRewards =>
    obtain ⟨_, h, rfl, -⟩ := h
    obtain ⟨_, _, _, _, _, _, rfl, -, -, -, -, -, -, -, rfl⟩ := processDistributeRewards_ok h
    exact putPool_apart (hk 0 (by simp [changedAt]) _ rfl)
  case closeMining =>
    obtain ⟨_, h, rfl, -⟩ := h
    obtain ⟨_, _, _, _, _, _, _, _, _, rfl, -, -, -, -, -, -, -, -, -, -, -, -, -, -, -, -, rfl⟩ := processCloseMining_ok h
    rw [set_apart (hk 0 (by simp [changedAt]) _ rfl), set_apart (hk 2 (by simp [changedAt]) _ rfl)]
  case changeDelegate =>
    obtain ⟨_, h, rfl, -⟩ := h
    obtain ⟨_, _, _, _, _, _, _, _, _, _, _, _, _, _, _, rfl, -, -, -, -, -, -, -, -, -, -, -, -, rfl⟩ :=
      processChangeDelegate_ok h
    rw [putDelegate_apart (hk 5 (by simp [changedAt]) _ rfl), putDelegate_apart (hk 4 (by simp [changedAt]) _ rfl),
      putMining_apart (hk 1 (by simp [changedAt]) _ rfl), putPool_apart (hk 0 (by simp [changedAt]) _ rfl)]
  case slash =>
    obtain ⟨_, h, rfl, -⟩ := h
    obtain ⟨_, _, _, _, _, _, _, _, rfl, -, -, -, -, -, -, rfl⟩ := processSlash_ok h
    rw [putMining_apart (hk 2 (by simp [changedAt]) _ rfl), putPool_apart (hk 1 (by simp [changedAt]) _ rfl)]
  case decreaseRewards =>
    obtain ⟨_, h, rfl, -⟩ := h
    obtain ⟨_, _, _, _, _, _, _, rfl, -, -, -, -, -, -, rfl⟩ := processDecreaseRewards_ok h
    exact putMining_apart (hk 2 (by simp [changedAt]) _ rfl)

/-! ### Granted privileges -/

theorem grants_cons {m : AccountInfo} {ms accs : List AccountInfo} (h : Spec.Grants (m :: ms) accs) :
    ∃ a as, accs = a :: as ∧ a.key = m.key ∧ (m.isSigner = true → a.isSigner = true) ∧
      (m.isWritable = true → a.isWritable = true) ∧ Spec.Grants ms as := by
  cases accs with
  | nil => exact h.elim
  | cons a as => exact ⟨a, as, rfl, h.1.1, h.1.2.1, h.1.2.2, h.2⟩

theorem grants_nil {accs : List AccountInfo} (h : Spec.Grants [] accs) : accs = [] := by
  cases accs with
  | nil => rfl
  | cons a as => exact h.elim

theorem allPrivileges_cons {a : AccountInfo} {as : List AccountInfo} :
    Spec.allPrivileges (a :: as) = full a :: Spec.allPrivileges as := rfl

theorem allPrivileges_nil : Spec.allPrivileges [] = [] := rfl

/-- What the program needs of the privileges: signatures, and write access for the accounts other programs change. -/
theorem crate_process {now : Nat} {w : World} {accs : List AccountInfo} {i : Ix} {n : Names}
    (h : Spec.Grants (crateMetas env n i) accs) :
    process env now w accs i = process env now w (Spec.allPrivileges accs) i := by
  cases i <;> simp only [crateMetas, writableMeta, readonlyMeta] at h
  case initializePool =>
    obtain ⟨_, _, rfl, -, -, -, h⟩ := grants_cons h
    obtain ⟨_, _, rfl, -, -, -, h⟩ := grants_cons h
    obtain ⟨_, _, rfl, -, -, h2, h⟩ := grants_cons h
    obtain ⟨_, _, rfl, -, h3, h3', h⟩ := grants_cons h
    obtain ⟨_, _, rfl, -, h4, -, h⟩ := grants_cons h
    obtain ⟨_, _, rfl, -, -, -, h⟩ := grants_cons h
    obtain ⟨_, _, rfl, -, -, -, h⟩ := grants_cons h
    obtain ⟨_, _, rfl, -, -, -, h⟩ := grants_cons h
    cases grants_nil h
    simp only [process, allPrivileges_cons, allPrivileges_nil, initPool_full (h3 rfl) (h3' rfl) (h2 rfl) (h4 rfl)]
  case fillVault =>
    obtain ⟨_, _, rfl, -, -, -, h⟩ := grants_cons h
    obtain ⟨_, _, rfl, -, -, -, h⟩ := grants_cons h
    obtain ⟨_, _, rfl, -, -, h2, h⟩ := grants_cons h
    obtain ⟨_, _, rfl, -, h3, -, h⟩ := grants_cons h
    obtain ⟨_, _, rfl, -, -, h4, h⟩ := grants_cons h
    obtain ⟨_, _, rfl, -, -, -, h⟩ := grants_cons h
    cases grants_nil h
    simp only [process, allPrivileges_cons, allPrivileges_nil, fillVault_full (h3 rfl) (h2 rfl) (h4 rfl)]
  case initializeMining =>
    obtain ⟨_, _, rfl, -, -, -, h⟩ := grants_cons h
    obtain ⟨_, _, rfl, -, -, h1, h⟩ := grants_cons h
    obtain ⟨_, _, rfl, -, h2, h2', h⟩ := grants_cons h
    obtain ⟨_, _, rfl, -, -, -, h⟩ := grants_cons h
    cases grants_nil h
    simp only [process, allPrivileges_cons, allPrivileges_nil, initMining_full (h2 rfl) (h2' rfl) (h1 rfl)]
  case depositMining =>
    obtain ⟨_, _, rfl, -, -, -, h⟩ := grants_cons h
    obtain ⟨_, _, rfl, -, -, -, h⟩ := grants_cons h
    obtain ⟨_, _, rfl, -, h2, -, h⟩ := grants_cons h
    obtain ⟨_, _, rfl, -, -, -, h⟩ := grants_cons h
    cases grants_nil h
    simp only [process, allPrivileges_cons, allPrivileges_nil, deposit_full (h2 rfl)]
  case withdrawMining =>
    obtain ⟨_, _, rfl, -, -, -, h⟩ := grants_cons h
    obtain ⟨_, _, rfl, -, -, -, h⟩ := grants_cons h
    obtain ⟨_, _, rfl, -, h2, -, h⟩ := grants_cons h
    obtain ⟨_, _, rfl, -, -, -, h⟩ := grants_cons h
    cases grants_nil h
    simp only [process, allPrivileges_cons, allPrivileges_nil, withdraw_full (h2 rfl)]
  case claim =>
    obtain ⟨_, _, rfl, -, -, -, h⟩ := grants_cons h
    obtain ⟨_, _, rfl, -, -, -, h⟩ := grants_cons h
    obtain ⟨_, _, rfl, -, -, h2, h⟩ := grants_cons h
    obtain ⟨_, _, rfl, -, -, -, h⟩ := grants_cons h
    obtain ⟨_, _, rfl, -, h4, -, h⟩ := grants_cons h
    obtain ⟨_, _, rfl, -, h5, -, h⟩ := grants_cons h
    obtain ⟨_, _, rfl, -, -, h6, h⟩ := grants_cons h
    obtain ⟨_, _, rfl, -, -, -, h⟩ := grants_cons h
    cases grants_nil h
    simp only [process, allPrivileges_cons, allPrivileges_nil, claim_full (h4 rfl) (h5 rfl) (h2 rfl) (h6 rfl)]
  case extendStake =>
    obtain ⟨_, _, rfl, -, -, -, h⟩ := grants_cons h
    obtain ⟨_, _, rfl, -, -, -, h⟩ := grants_cons h
    obtain ⟨_, _, rfl, -, h2, -, h⟩ := grants_cons h
    obtain ⟨_, _, rfl, -, -, -, h⟩ := grants_cons h
    cases grants_nil h
    simp only [process, allPrivileges_cons, allPrivileges_nil, extend_full (h2 rfl)]
  case distributeRewards =>
    obtain ⟨_, _, rfl, -, -, -, h⟩ := grants_cons h
    obtain ⟨_, _, rfl, -, h1, -, h⟩ := grants_cons h
    cases grants_nil h
    simp only [process, allPrivileges_cons, allPrivileges_nil, distribute_full (h1 rfl)]
  case closeMining =>
    obtain ⟨_, _, rfl, -, -, -, h⟩ := grants_cons h
    obtain ⟨_, _, rfl, -, h1, -, h⟩ := grants_cons h
    obtain ⟨_, _, rfl, -, -, -, h⟩ := grants_cons h
    obtain ⟨_, _, rfl, -, h3, -, h⟩ := grants_cons h
    obtain ⟨_, _, rfl, -, -, -, h⟩ := grants_cons h
    cases grants_nil h
    simp only [process, allPrivileges_cons, allPrivileges_nil, close_full (h1 rfl) (h3 rfl)]
  case changeDelegate =>
    obtain ⟨_, _, rfl, -, -, -, h⟩ := grants_cons h
    obtain ⟨_, _, rfl, -, -, -, h⟩ := grants_cons h
    obtain ⟨_, _, rfl, -, h2, -, h⟩ := grants_cons h
    obtain ⟨_, _, rfl, -, h3, -, h⟩ := grants_cons h
    obtain ⟨_, _, rfl, -, -, -, h⟩ := grants_cons h
    obtain ⟨_, _, rfl, -, -, -, h⟩ := grants_cons h
    cases grants_nil h
    simp only [process, allPrivileges_cons, allPrivileges_nil, changeDelegate_full (h3 rfl) (h2 rfl)]
  case slash =>
    obtain ⟨_, _, rfl, -, h0, -, h⟩ := grants_cons h
    obtain ⟨_, _, rfl, -, -, -, h⟩ := grants_cons h
    obtain ⟨_, _, rfl, -, -, -, h⟩ := grants_cons h
    cases grants_nil h
    simp only [process, allPrivileges_cons, allPrivileges_nil, slash_full (h0 rfl)]
  case decreaseRewards =>
    obtain ⟨_, _, rfl, -, h0, -, h⟩ := grants_cons h
    obtain ⟨_, _, rfl, -, -, -, h⟩ := grants_cons h
    obtain ⟨_, _, rfl, -, -, -, h⟩ := grants_cons h
    cases grants_nil h
    simp only [process, allPrivileges_cons, allPrivileges_nil, decrease_full (h0 rfl)]

theorem grants_get {metas accs : List AccountInfo} (h : Spec.Grants metas accs) {j : Nat} {a : AccountInfo}
    (ha : accs[j]? = some a) : ∃ m, metas[j]? = some m ∧ a.key = m.key ∧ (m.isWritable = true → a.isWritable = true) := by
  induction metas generalizing accs j with
  | nil => cases grants_nil h; simp at ha
  | cons m ms ih =>
    obtain ⟨b, bs, rfl, h1, -, h3, h⟩ := grants_cons h
    cases j with
    | zero => cases ha; exact ⟨m, rfl, h1, h3⟩
    | succ j => exact ih h ha

theorem grants_length {metas accs : List AccountInfo} (h : Spec.Grants metas accs) : accs.length = metas.length := by
  induction metas generalizing accs with
  | nil => rw [grants_nil h]
  | cons m ms ih =>
    obtain ⟨b, bs, rfl, -, -, -, h⟩ := grants_cons h
    rw [List.length_cons, List.length_cons, ih h]

theorem grants_key {metas accs : List AccountInfo} (h : Spec.Grants metas accs) (j : Nat) :
    accs[j]?.map (fun a => AccountInfo.key a) = metas[j]?.map (fun a => AccountInfo.key a) := by
  cases hj : accs[j]? with
  | some a =>
    obtain ⟨m, h1, h2, -⟩ := grants_get h hj
    rw [h1]; exact congrArg some h2
  | none =>
    rw [List.getElem?_eq_none_iff, grants_length h] at hj
    rw [List.getElem?_eq_none_iff.mpr hj]

/-- The crate's builders request write access for every account the program may change. -/
theorem crate_writable {n : Names} {i : Ix} {j : Nat} (hj : j ∈ changedAt i) {m : AccountInfo}
    (hm : (crateMetas env n i)[j]? = some m) : m.isWritable = true := by
  cases i <;> simp only [changedAt, List.mem_cons, List.not_mem_nil, or_false] at hj <;>
    (try rcases hj with rfl | rfl | rfl | rfl) <;> (try rcases hj with rfl | rfl | rfl) <;>
    (try rcases hj with rfl | rfl) <;> (try subst hj) <;> cases hm <;> rfl

theorem crate_exec {now : Nat} {w : World} {accs : List AccountInfo} {i : Ix} {n : Names}
    (h : Spec.Grants (crateMetas env n i) accs) (hm : Spec.Merged accs) {r : World × Option Nat} :
    exec env now w accs i = .ok r ↔ exec env now w (Spec.allPrivileges accs) i = .ok r := by
  obtain ⟨w', ret⟩ := r
  rw [exec_ok, exec_ok, ← crate_process h]
  constructor
  · rintro ⟨h1, -⟩
    refine ⟨h1, fun a ha hf => ?_⟩
    obtain ⟨_, _, rfl⟩ := List.mem_map.mp ha
    cases hf
  · rintro ⟨h1, -⟩
    refine ⟨h1, fun a ha hf => process_apart h1 fun j hj b hb e => ?_⟩
    obtain ⟨m, hm1, -, hm3⟩ := grants_get h hb
    have := hm3 (crate_writable hj hm1)
    rw [← (hm a ha b (List.mem_of_getElem? hb) e).2, hf] at this
    cases this

theorem grants_merge (metas : List AccountInfo) : Spec.Grants metas (mergePrivileges metas) := by
  have key : ∀ l : List AccountInfo, (∀ x ∈ l, x ∈ metas) → Spec.Grants l (l.map fun m =>
      { key := m.key
        isSigner := metas.any fun x => x.key = m.key && x.isSigner
        isWritable := metas.any fun x => x.key = m.key && x.isWritable }) := by
    intro l
    induction l with
    | nil => intro _; trivial
    | cons a as ih =>
      intro hl
      refine ⟨⟨rfl, fun h => ?_, fun h => ?_⟩, ih fun x hx => hl x (List.mem_cons_of_mem _ hx)⟩
      · exact List.any_eq_true.mpr ⟨a, hl a (List.mem_cons_self ..), by simp [h]⟩
      · exact List.any_eq_true.mpr ⟨a, hl a (List.mem_cons_self ..), by simp [h]⟩
  exact key metas fun _ h => h

theorem merged_merge (metas : List AccountInfo) : Spec.Merged (mergePrivileges metas) := by
  intro a ha b hb e
  obtain ⟨x, -, rfl⟩ := List.mem_map.mp ha
  obtain ⟨y, -, rfl⟩ := List.mem_map.mp hb
  have e : x.key = y.key := e
  exact ⟨by simp only [e], by simp only [e]⟩

theorem mem_merge {metas : List AccountInfo} {a : AccountInfo} (h : a ∈ mergePrivileges metas) :
    (a.isSigner = true ↔ ∃ x ∈ metas, x.key = a.key ∧ x.isSigner = true) ∧
    (a.isWritable = true ↔ ∃ x ∈ metas, x.key = a.key ∧ x.isWritable = true) := by
  obtain ⟨x, -, rfl⟩ := List.mem_map.mp h
  constructor <;> simp

end Verif
