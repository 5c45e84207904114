import Verif.Lemmas.Dividend
import Verif.Lemmas.Early
import Verif.Lemmas.DemoLedger
import Verif.Props.Life
/-!
C111: over a whole honest history a staker gets what the ledger of stakes says.
-/

namespace Verif

open Spec

section
variable {env : Env}

/-- C111.  Let the staking program report only operations on real stakes (`Spec.LedgerRuns`), and let `es` be any part of such a
history that begins before the mining at `k` is created.  Then what the owner of `k` has been paid by the end plus what is still
owed is the sum of the dividends of the owner's stakes, computed from the ledger of stakes and the amounts distributed alone
(`Spec.dividendBy`): never more, and less only by the rounding to whole tokens, one for every time the mining is brought up to date
and for every lock that expires.  As in C72 the mining is neither closed nor penalized, its own stake is not changed in the first
second of a day, the stake delegated to it is changed only when it is up to date, and the pool's history is not full. -/
theorem C111_refines (hi : env.PdaInjective) {P k : Key} {s0 s s' : Chain} {es0 es : List Event} {L L' : Ledger} {n : Nat}
    {m' : Mining} {p p' : Pool} (hg : Genesis env s0) (h0 : LedgerRuns env P s0 [] es0 s L) (hp : PoolAt env s.world P p)
    (hnew : ∀ m, ¬ Member env s.world P k m) (hd : DividendRuns env P k s L es s' L' n)
    (hr : RunsWith env (CarefulEvent env P k) s es s') (hm' : Member env s'.world P k m') (hp' : PoolAt env s'.world P p')
    (hroom : p'.cumulative.length < env.caps.index) :
    10 ^ 16 * totalIn env (claimedBy env k) s es + owed m' p'.cumulative ≤ n ∧
    n ≤ 10 ^ 16 * totalIn env (claimedBy env k) s es + owed m' p'.cumulative +
      10 ^ 16 * totalIn env (roundedBy env k) s es := by
  have hre : Reachable env s := ⟨s0, es0, hg, h0.clean⟩
  have hP0 : P ≠ 0 := (reachable_wf hre P).nonzero hp.1
  have hre' : Reachable env s' := hre.runs hd.ledger.clean
  obtain ⟨hpr, haddr⟩ := member_proper hre' hP0 hm'
  have hstart : OwedAt env P k s p 0 := .none fun m hm => by
    rcases reachable_mining hre hm.1 with h | ⟨-, h⟩
    · exact absurd (hm.2.symm.trans h.type) (by decide)
    · obtain ⟨-, h1, -⟩ := hi.mining _ _ _ _ _ _ _ (env.findMining_spec _ _ _ _ h) (env.findMining_spec _ _ _ _ haddr)
      exact hnew m ⟨hm.1, h1⟩
  obtain ⟨y, h1, h2, h3⟩ := runs_dividend hi haddr hP0 hd hr hre (ledger_booked hi hP0 hg h0) hp hp' hroom hstart
  have hy : y = owed m' p'.cumulative := by
    cases h1 with
    | mining q1 => rw [MiningAt.unique q1.1 hm'.1]
    | none q => exact absurd hpr (q m')
  rw [hy, Nat.zero_add] at h2 h3
  exact ⟨h2, h3⟩

/-- C111.  A dividend is the owner's part of the tokens distributed: never more than the proportional part, and less than one unit
of 1/10^16 token per unit of stake below it. -/
theorem C111_proportional {P k : Key} {s : Chain} {L : Ledger} {e : Event} (hw : 0 < L.weight k (midnight s.now))
    (ht : 0 < L.all (midnight s.now)) :
    dividendBy env P k s L e * (L.all (midnight s.now)).toNat ≤
      10 ^ 16 * distributedBy env P s e * L.weight k (midnight s.now) ∧
    10 ^ 16 * distributedBy env P s e * L.weight k (midnight s.now) <
      (dividendBy env P k s L e + L.weight k (midnight s.now)) * (L.all (midnight s.now)).toNat := by
  unfold dividendBy
  have hT : 0 < (L.all (midnight s.now)).toNat := by omega
  revert hT hw
  generalize (L.all (midnight s.now)).toNat = T
  generalize L.weight k (midnight s.now) = w
  generalize 10 ^ 16 * distributedBy env P s e = a
  intro hw hT
  have h1 := Nat.div_mul_le_self a T
  have h2 : a < (a / T + 1) * T := by
    rw [Nat.mul_comm]; exact Nat.lt_mul_div_succ a hT
  constructor
  · rw [Nat.mul_right_comm]; exact Nat.mul_le_mul_right _ h1
  · have h3 : (a / T * w + w) * T = (a / T + 1) * T * w := by
      rw [Nat.mul_right_comm (a / T + 1), Nat.add_mul (a / T), Nat.one_mul]
    rw [h3]; exact Nat.mul_lt_mul_of_pos_right h2 hw

/-- C111.  Together the dividends of all stakers never exceed the tokens distributed. -/
theorem C111_together {P : Key} {s : Chain} {L : Ledger} {e : Event} {ks : List Key} (hk : ks.Nodup)
    (hks : ∀ y ∈ L, 0 < y.amount → y.mining ∈ ks ∧ y.delegate ∈ ks) :
    (ks.map fun k => dividendBy env P k s L e).sum ≤ 10 ^ 16 * distributedBy env P s e := by
  have h1 : (ks.map fun k => dividendBy env P k s L e).sum =
      10 ^ 16 * distributedBy env P s e / (L.all (midnight s.now)).toNat *
        (ks.map fun k => L.weight k (midnight s.now)).sum := by
    clear hk hks
    induction ks with
    | nil => rfl
    | cons a t ih => rw [List.map_cons, List.sum_cons, ih, List.map_cons, List.sum_cons, Nat.mul_add, dividendBy]
  have h2 : (ks.map fun k => L.weight k (midnight s.now)).sum = (L.all (midnight s.now)).toNat := by
    have h3 := all_eq_sum hk hks (x := midnight s.now)
    have h4 : (((ks.map fun k => L.weight k (midnight s.now)).sum : Nat) : Int) =
        (ks.map fun k => L.own k (midnight s.now) + L.lentTo k).sum := by
      clear h1 h3 hk hks
      induction ks with
      | nil => rfl
      | cons a t ih =>
        have g1 := own_nonneg L a (midnight s.now)
        have g2 := lentTo_nonneg L a
        simp only [List.map_cons, List.sum_cons, ← ih, Ledger.weight]
        omega
    omega
  rw [h1, h2]
  exact Nat.div_mul_le_self _ _

end

/-! ### Concrete cases -/

section Examples
open Demo

/-- The dividends along a history with ledger. -/
def dividendOf (P k : Key) : Chain → Ledger → List (Event × Nat) → Nat
  | _, _, [] => 0
  | s, L, (e, j) :: es => dividendBy Demo.env P k s L e +
    match e with
    | .ix accs i => match reportB P s.now s.world accs i L j with
      | some L' => dividendOf P k (s.apply Demo.env (.ix accs i)) L' es
      | none => 0
    | e => dividendOf P k (s.apply Demo.env e) L es

theorem dividendOf_sound {P k : Key} {s s' : Chain} {L L' : Ledger} {es : List (Event × Nat)}
    (h : ledgerRun P s L es = some (s', L')) :
    DividendRuns Demo.env P k s L (es.map (·.1)) s' L' (dividendOf P k s L es) := by
  induction es generalizing s L with
  | nil => cases h; exact .nil _ _
  | cons e es ih =>
    obtain ⟨e, j⟩ := e
    simp only [ledgerRun] at h
    split at h
    · rename_i he
      obtain ⟨h1, h2⟩ := okEvent_sound he
      cases e with
      | ix accs i =>
        simp only at h
        split at h
        · rename_i L1 hr
          obtain ⟨ret, hx⟩ := exec_of_ok he
          simp only [dividendOf, hr]
          exact .cons h1 ⟨h2, Or.inl ⟨⟨_, hx⟩, reportB_sound hr⟩⟩ (ih h)
        · cases h
      | tick d => exact .cons h1 rfl (ih h)
      | gc k => cases h
      | ext w => cases h
    · cases h

/-- A pool with one staker and one distribution. -/
def founded : List (Event × Nat) :=
  [(initPool 100, 0), (initMining 100 120, 0), (fill 100 1000000 (day0 + 40 * DAY), 0), (deposit 100 120 500 .oneYear 120, 0),
   (distribute 100, 0)]

def afterFounded : Chain × Ledger := (ledgerRun 100 s0 [] founded).getD (s0, [])

/-- A second staker joins, stakes, claims, is slashed, withdraws and extends; the first one delegates to them for a while. -/
def joined : List (Event × Nat) :=
  [(initMining 100 121, 0), (deposit 100 121 300 .flex 121, 0), (deposit 100 121 200 .threeMonths 121, 0),
   (.tick DAY, 0), (distribute 100, 0), (.tick 10, 0), (claim 100 121 131, 0), (redelegate 100 120 500 120 121, 2),
   (slash 100 121 20 40 (some (day0 + 90 * DAY)), 1), (.tick DAY, 0), (distribute 100, 0), (claim 100 121 131, 0),
   (redelegate 100 120 500 121 120, 1), (withdraw 100 121 100 121, 2), (.tick DAY, 0), (distribute 100, 0),
   (extend 100 121 .flex .sixMonths (day0 + 100) 200 50 121, 0), (.tick DAY, 0), (distribute 100, 0), (claim 100 121 131, 0)]

def afterJoined : Chain × Ledger := (ledgerRun 100 afterFounded.1 afterFounded.2 joined).getD afterFounded

/-- The hypotheses hold for the second staker, and they are paid more than once. -/
example : ∃ (n : Nat) (m' : Mining) (p p' : Pool),
    Demo.env.PdaInjective ∧ Genesis Demo.env s0 ∧
    LedgerRuns Demo.env 100 s0 [] (founded.map (·.1)) afterFounded.1 afterFounded.2 ∧
    PoolAt Demo.env afterFounded.1.world 100 p ∧ (∀ m, ¬ Member Demo.env afterFounded.1.world 100 (mine 121 100) m) ∧
    DividendRuns Demo.env 100 (mine 121 100) afterFounded.1 afterFounded.2 (joined.map (·.1)) afterJoined.1 afterJoined.2 n ∧
    RunsWith Demo.env (CarefulEvent Demo.env 100 (mine 121 100)) afterFounded.1 (joined.map (·.1)) afterJoined.1 ∧
    Member Demo.env afterJoined.1.world 100 (mine 121 100) m' ∧ PoolAt Demo.env afterJoined.1.world 100 p' ∧
    p'.cumulative.length < Demo.env.caps.index ∧
    0 < totalIn Demo.env (claimedBy Demo.env (mine 121 100)) afterFounded.1 (joined.map (·.1)) ∧ 10 ^ 16 < n := by
  obtain ⟨p, h1, -⟩ := hasPool_sound (show hasPool afterFounded.1.world 100 (fun _ => true) = true by decide +kernel)
  obtain ⟨p', h2, h3⟩ := hasPool_sound (show hasPool afterJoined.1.world 100
    (fun p => decide (p.cumulative.length < Demo.env.caps.index)) = true by decide +kernel)
  obtain ⟨m', h4, -⟩ := memberB_sound (show memberB afterJoined.1.world 100 (mine 121 100) (fun _ => true) = true by
    decide +kernel)
  have h5 : ledgerRun 100 afterFounded.1 afterFounded.2 joined = some (afterJoined.1, afterJoined.2) := by
    have : (ledgerRun 100 afterFounded.1 afterFounded.2 joined).isSome = true := by decide +kernel
    unfold afterJoined
    revert this
    generalize ledgerRun 100 afterFounded.1 afterFounded.2 joined = r
    cases r <;> simp
  have h6 := dividendOf_sound (s' := afterJoined.1) (L' := afterJoined.2) (k := mine 121 100) h5
  have h7 : ∀ m, ¬ Member Demo.env afterFounded.1.world 100 (mine 121 100) m := by
    intro m hm
    have h8 : (match (afterFounded.1.world (mine 121 100)).content with | .mining _ => true | _ => false) = false := by
      decide +kernel
    rw [hm.1.2] at h8; cases h8
  have h9 : 10 ^ 16 < dividendOf 100 (mine 121 100) afterFounded.1 afterFounded.2 joined := by decide +kernel
  have h10 : 0 < totalIn Demo.env (claimedBy Demo.env (mine 121 100)) afterFounded.1 (joined.map (·.1)) := by decide +kernel
  exact ⟨_, m', p, p', env_injective, s0_genesis, ledgerRun_eq (by decide +kernel), h1, h7, h6,
    carefulRun_sound h6.ledger.clean (by decide +kernel), h4, h2, of_decide_eq_true h3, h10, h9⟩

/-- On the second staker's first day there are stakes, and the staker has a part of them. -/
example : 0 < afterJoined.2.weight (mine 121 100) (midnight afterJoined.1.now) ∧
    0 < afterJoined.2.all (midnight afterJoined.1.now) := ⟨by decide +kernel, by decide +kernel⟩

/-- All stakes of the example belong to two stakers. -/
example : [mine 120 100, mine 121 100].Nodup ∧
    ∀ y ∈ afterJoined.2, 0 < y.amount → y.mining ∈ [mine 120 100, mine 121 100] ∧ y.delegate ∈ [mine 120 100, mine 121 100] :=
  ⟨by decide +kernel, by decide +kernel⟩

end Examples

end Verif
