import Verif.Lemmas.DemoOrderly
import Verif.Spec.Ledger
/-!
Checking by evaluation that a concrete history is honest, keeping the ledger along.
-/

namespace Verif.Demo

open Spec

def roomForB (now : Nat) (w : World) (P M : Key) (e : Nat) : Bool :=
  (match (w P).content with
    | .pool p => decide ((∃ x ∈ p.diffs, x.1 = e) ∨ p.diffs.length < env.caps.pool)
    | _ => true) &&
  (match (w M).content with
    | .mining m => decide ((∃ x ∈ laterThan m.diffs (midnight now), x.1 = e) ∨
        (laterThan m.diffs (midnight now)).length < env.caps.mining)
    | _ => true)

theorem roomForB_sound {now : Nat} {w : World} {P M : Key} {e : Nat} (h : roomForB now w P M e = true) :
    RoomFor env now w P M e := by
  unfold roomForB at h
  simp only [Bool.and_eq_true] at h
  obtain ⟨h1, h2⟩ := h
  refine ⟨fun p hp => ?_, fun m hm => ?_⟩
  · rw [hp.2] at h1; simpa [HasRoom] using h1
  · rw [hm.2] at h2; simpa [HasRoom] using h2

theorem perm_eraseIdx {L : Ledger} {j : Nat} {y : StakeEntry} (h : L[j]? = some y) : L.Perm (y :: L.eraseIdx j) := by
  induction L generalizing j with
  | nil => cases h
  | cons z t ih =>
    cases j with
    | zero => cases h; exact .refl _
    | succ j =>
      rw [List.getElem?_cons_succ] at h
      exact ((ih h).cons z).trans (.swap _ _ _)

/-- The ledger after a successful instruction that concerns the stake number `j`; `none` if the report is not honest. -/
def reportB (P : Key) (now : Nat) (w : World) (accs : List AccountInfo) (i : Ix) (L : Ledger) (j : Nat) :
    Option Ledger :=
  match i, L[j]? with
  | .depositMining a l _ _, _ =>
    match accs[0]?.map (·.key), accs[1]?.map (·.key), accs[3]?.map (·.key), terms l with
    | some Q, some M, some D, some (k, n) =>
      if decide (Q = P) && memberB w P D (fun _ => true) && roomForB now w P M (midnight now + 86400 * n) then
        some (⟨M, D, a, k, midnight now + 86400 * n⟩ :: L) else none
    | _, _, _, _ => none
  | .withdrawMining a _ _, some y =>
    if decide (accs[0]?.map (·.key) = some P ∧ accs[1]?.map (·.key) = some y.mining ∧
        accs[3]?.map (·.key) = some y.delegate ∧ (y.times = 1 ∨ y.expires ≤ now) ∧ a ≤ y.amount) then
      some ({ y with amount := y.amount - a } :: L.eraseIdx j) else none
  | .extendStake ol nl ts b a _ _, some y =>
    match terms ol, terms nl with
    | some (k, n), some (k', n') =>
      if decide (accs[0]?.map (·.key) = some P ∧ accs[1]?.map (·.key) = some y.mining ∧
          accs[3]?.map (·.key) = some y.delegate ∧ (y.times = 1 ∨ y.expires ≤ now) ∧ y.amount = b ∧ y.times = k ∧
          y.expires = midnight ts + 86400 * n) && memberB w P y.delegate (fun _ => true) &&
          roomForB now w P y.mining (midnight now + 86400 * n') then
        some ({ y with amount := b + a, times := k', expires := midnight now + 86400 * n' } :: L.eraseIdx j) else none
    | _, _ => none
  | .changeDelegate a _, some y =>
    match accs[5]?.map (·.key) with
    | some New =>
      if decide (accs[0]?.map (·.key) = some P ∧ accs[1]?.map (·.key) = some y.mining ∧
          accs[4]?.map (·.key) = some y.delegate ∧ a = y.amount) && memberB w P New (fun _ => true) then
        some ({ y with delegate := New } :: L.eraseIdx j) else none
    | none => none
  | .slash _ n mu none, some y =>
    if decide (accs[1]?.map (·.key) = some P ∧ accs[2]?.map (·.key) = some y.mining ∧ y.delegate = y.mining ∧
        (y.times = 1 ∨ y.expires ≤ now) ∧ n ≤ y.amount ∧ mu = n) then
      some ({ y with amount := y.amount - n } :: L.eraseIdx j) else none
  | .slash _ n mu (some ts), some y =>
    if decide (accs[1]?.map (·.key) = some P ∧ accs[2]?.map (·.key) = some y.mining ∧ y.delegate = y.mining ∧
        y.expires = midnight ts ∧ n ≤ y.amount ∧ mu = n * y.times) then
      some ({ y with amount := y.amount - n } :: L.eraseIdx j) else none
  | .closeMining, _ =>
    if List.all L (fun y => decide (accs[0]?.map (·.key) = some y.mining → y.amount = 0)) then some L else none
  | i, _ => if isService i then some L else none

theorem reportB_sound {P : Key} {now : Nat} {w : World} {accs : List AccountInfo} {i : Ix} {L L' : Ledger} {j : Nat}
    (h : reportB P now w accs i L j = some L') : Reports env P now w accs i L L' := by
  unfold reportB at h
  split at h
  · split at h
    · rename_i h1 h2 h3 h4
      split at h
      · rename_i h5
        cases h
        simp only [Bool.and_eq_true, decide_eq_true_eq] at h5
        obtain ⟨⟨rfl, h6⟩, h7⟩ := h5
        obtain ⟨x, hx, -⟩ := memberB_sound h6
        exact .deposit h1 h2 h3 ⟨x, hx⟩ h4 (roomForB_sound h7)
      · cases h
    · cases h
  · rename_i hy
    split at h
    · rename_i h5
      cases h
      simp only [decide_eq_true_eq] at h5
      obtain ⟨h1, h2, h3, h4, h5⟩ := h5
      exact .withdraw h1 h2 h3 (perm_eraseIdx hy) h4 h5
    · cases h
  · rename_i hy
    split at h
    · rename_i t1 t2
      split at h
      · rename_i h5
        cases h
        simp only [Bool.and_eq_true, decide_eq_true_eq] at h5
        obtain ⟨⟨⟨h1, h2, h3, h4, rfl, h6, h7⟩, h8⟩, h9⟩ := h5
        obtain ⟨x, hx, -⟩ := memberB_sound h8
        exact .extend h1 h2 h3 ⟨x, hx⟩ (perm_eraseIdx hy) h4 t1 h6 h7 t2 (roomForB_sound h9)
      · cases h
    · cases h
  · rename_i hy
    split at h
    · rename_i t1
      split at h
      · rename_i h5
        cases h
        simp only [Bool.and_eq_true, decide_eq_true_eq] at h5
        obtain ⟨⟨h1, h2, h3, rfl⟩, h8⟩ := h5
        obtain ⟨x, hx, -⟩ := memberB_sound h8
        exact .redelegate h1 h2 h3 t1 ⟨x, hx⟩ (perm_eraseIdx hy)
      · cases h
    · cases h
  · rename_i hy
    split at h
    · rename_i h5
      cases h
      simp only [decide_eq_true_eq] at h5
      obtain ⟨h1, h2, h3, h4, h5, rfl⟩ := h5
      exact .slash h1 h2 (perm_eraseIdx hy) h3 h4 h5
    · cases h
  · rename_i hy
    split at h
    · rename_i h5
      cases h
      simp only [decide_eq_true_eq] at h5
      obtain ⟨h1, h2, h3, h4, h5, rfl⟩ := h5
      exact .slashLocked h1 h2 (perm_eraseIdx hy) h3 h4 h5
    · cases h
  · split at h
    · rename_i h5
      cases h
      simp only [List.all_eq_true, decide_eq_true_eq] at h5
      exact .close h5
    · cases h
  · split at h
    · rename_i h5
      cases h
      exact .service h5
    · cases h

/-- Run a list of events with ledger. -/
def ledgerRun (P : Key) : Chain → Ledger → List (Event × Nat) → Option (Chain × Ledger)
  | s, L, [] => some (s, L)
  | s, L, (e, j) :: es =>
    if okEvent s e = true then
      match e with
      | .ix accs i => match reportB P s.now s.world accs i L j with
        | some L' => ledgerRun P (s.apply env (.ix accs i)) L' es
        | none => none
      | .tick d => ledgerRun P (s.apply env (.tick d)) L es
      | _ => none
    else none

theorem ledgerRun_sound {P : Key} {s s' : Chain} {L L' : Ledger} {es : List (Event × Nat)}
    (h : ledgerRun P s L es = some (s', L')) : LedgerRuns env P s L (es.map (·.1)) s' L' := by
  induction es generalizing s L with
  | nil => cases h; exact .nil _ _
  | cons e es ih =>
    obtain ⟨e, j⟩ := e
    simp only [ledgerRun] at h
    split at h
    · rename_i he
      obtain ⟨h1, h2⟩ := okEvent_sound he
      cases e with
      | ix accs i =>
        simp only at h
        split at h
        · rename_i L1 hr
          obtain ⟨ret, hx⟩ := exec_of_ok he
          exact .cons h1 ⟨h2, Or.inl ⟨⟨_, hx⟩, reportB_sound hr⟩⟩ (ih h)
        · cases h
      | tick d => exact .cons h1 rfl (ih h)
      | gc k => cases h
      | ext w => cases h
    · cases h

theorem ledgerRun_eq {P : Key} {es : List (Event × Nat)} (h : (ledgerRun P s0 [] es).isSome = true) :
    LedgerRuns env P s0 [] (es.map (·.1)) ((ledgerRun P s0 [] es).getD (s0, [])).1 ((ledgerRun P s0 [] es).getD (s0, [])).2 := by
  refine ledgerRun_sound ?_
  cases hr : ledgerRun P s0 [] es with
  | none => rw [hr] at h; cases h
  | some x => rfl

/-- An honest history with every kind of operation. -/
def ledgerStory : List (Event × Nat) :=
  [(initPool 100, 0), (initMining 100 120, 0), (initMining 100 121, 0), (fill 100 1000000 (day0 + 40 * DAY), 0),
   (deposit 100 120 500 .oneYear 121, 0), (deposit 100 121 300 .flex 121, 0), (deposit 100 121 200 .threeMonths 121, 0),
   (.tick DAY, 0), (distribute 100, 0), (.tick 10, 0), (claim 100 121 131, 0), (slash 100 121 20 40 (some (day0 + 90 * DAY)), 0),
   (withdraw 100 121 100 121, 1), (redelegate 100 120 500 121 120, 2), (extend 100 121 .flex .sixMonths (day0 + 100) 200 50 121, 1),
   (.tick (100 * DAY), 0), (slash 100 121 30 30 none, 2), (initMining 100 122, 0), (close 100 122, 0)]

def afterLedger : Chain × Ledger := (ledgerRun 100 s0 [] ledgerStory).getD (s0, [])

end Verif.Demo
