import Verif.Lemmas.Between
import Verif.Props.Claim
import Verif.Props.Income
import Verif.Props.Dividend
/-!
C112: what a claim pays, from the ledger of stakes.
-/

namespace Verif

open Spec

section
variable {env : Env}

/-- C112.  Two claims of the same staker in an honest history (`Spec.LedgerRuns`), with no instruction in between that may write to
the mining, and none of the two in the first second of a day.  The second claim pays the sum of the dividends of the staker's
stakes since the first one, computed from the ledger of stakes and the amounts distributed alone, in whole tokens: rounded down
once, and once more for every date of expiration in the mining that has come in between.  (The pool's history must not be full.) -/
theorem C112_between (hi : env.PdaInjective) {P k : Key} {s0 s s' : Chain} {es0 es : List Event} {L L' : Ledger} {n r : Nat}
    {accs accs' : List AccountInfo} {w w' : World} {ret : Option Nat} {p' : Pool} (hg : Genesis env s0)
    (h0 : LedgerRuns env P s0 [] es0 s L) (hs : RealSigners accs) (hc : NotPoolAsMining env s.world accs .claim)
    (h1 : exec env s.now s.world accs .claim = .ok (w, ret)) (hP : poolArg accs .claim = some P)
    (hk : miningArg accs .claim = some k) (hmid : s.now ≠ midnight s.now)
    (hd : DividendRuns env P k ⟨s.now, w⟩ L es s' L' n) (hsp : RunsWith env (fun _ e => Spares k e) ⟨s.now, w⟩ es s')
    (hs' : RealSigners accs') (hc' : NotPoolAsMining env s'.world accs' .claim)
    (h2 : exec env s'.now s'.world accs' .claim = .ok (w', some r)) (hP' : poolArg accs' .claim = some P)
    (hk' : miningArg accs' .claim = some k) (hmid' : s'.now ≠ midnight s'.now) (hp' : PoolAt env s'.world P p')
    (hroom : p'.cumulative.length < env.caps.index) :
    ∃ m, MiningAt env w k m ∧ 10 ^ 16 * r ≤ n ∧ n < 10 ^ 16 * (r + expiredCount m (midnight s'.now) + 1) := by
  have hre : Reachable env s := ⟨s0, es0, hg, h0.clean⟩
  have hw := reachable_wf hre
  have hre1 : Reachable env ⟨s.now, w⟩ := by
    have := hre.step (e := .ix accs .claim) hs hc
    rwa [apply_ix_ok h1] at this
  have hre2 : Reachable env s' := hre1.runs hd.ledger.clean
  obtain ⟨P1, T, V, M, O, A, U, rest, p, m, c, rfl, a1, a2, a3, a4, a5, a6, a7, a8, a9, a10⟩ := C01_claim_exact hw hs hc h1
  obtain rfl : P1.key = P := Option.some.inj hP
  obtain rfl : M.key = k := Option.some.inj hk
  have hP0 : P1.key ≠ 0 := (hw P1.key).nonzero a1.1
  have hb := ledger_booked hi hP0 hg h0
  have hb1 : Booked env s.now w P1.key L := by
    have hv : (Event.ix (P1 :: T :: V :: M :: O :: A :: U :: rest) Ix.claim).Valid env s := hs
    have := apply_booked hi hP0 hv (L' := L) ⟨hc, Or.inl ⟨⟨_, h1⟩, .service rfl⟩⟩ hw hb
    rwa [apply_ix_ok h1] at this
  have hp1 : PoolAt env w P1.key p := (poolAt_congr a9).mpr a1
  have hpool : m.rewardPool = P1.key := by
    cases step_of_exec hw hs hc h1 with
    | stake _ op => exact op.elim
    | @claim P2 T2 V2 M2 O2 A2 U2 K2 rest2 q m2 m3 x accs_eq _ _ eff =>
      cases accs_eq
      rw [MiningAt.unique a2 eff.mining]; exact eff.inPool
  have good := poolAt_good hw a1
  have hlen : p.cumulative.length ≤ p'.cumulative.length := ledger_grows hd.ledger hre1 hp1 hp'
  have hlast := index_recorded hre a1 (Nat.lt_of_le_of_lt hlen hroom)
  have hset := settled_of good.ok hmid
  have hix : indexBefore p.cumulative s.now = lastIndex 0 p.cumulative := settled_index hset
  obtain ⟨m1, hm1, hz, hpl, hidx⟩ : ∃ m1, MiningAt env w M.key m1 ∧ owed m1 p.cumulative = 0 ∧ m1.rewardPool = P1.key ∧
      m1.index ≤ p.index := by
    refine ⟨_, a8, ?_, hpool, ?_⟩
    · unfold owed
      rw [pending_consumed good.ok.history (by simp only [hix]; exact Nat.le_refl _)]
      rfl
    · simp only [hix, hlast]; exact Nat.le_refl _
  obtain ⟨g1, g2⟩ := runs_alone hi hP0 hpl hd hsp hre1 hb1 hm1 hp1 hidx hp' hroom
  rw [hz, Nat.zero_add] at g2
  refine ⟨m1, hm1, ?_⟩
  have hw2 := reachable_wf hre2
  obtain ⟨P2, T2, V2, M2, O2, A2, U2, rest2, q, m2, c2, rfl, b1, b2, b3, b4, b5, b6, b7, b8, b9, b10⟩ :=
    C01_claim_exact hw2 hs' hc' h2
  have e1 : P2.key = P1.key := Option.some.inj hP'
  have e2 : M2.key = M.key := Option.some.inj hk'
  rw [e1] at b1
  rw [e2] at b2
  obtain rfl := PoolAt.unique b1 hp'
  obtain rfl := MiningAt.unique b2 g1
  have hr : r = m2.unclaimed + c2 := Option.some.inj b5
  have hset' := settled_of (poolAt_good hw2 b1).ok hmid'
  have hent : entitlement m2 q.cumulative s'.now = pending m2 q.cumulative := by
    unfold entitlement pending
    rw [List.filter_eq_self.mpr fun e he => by simpa using hset' e he]
  rw [hent] at b3 b4
  unfold owed at g2
  constructor <;> omega

/-- C112.  If none of the mining's dates of expiration has come in between, the second claim pays exactly the dividends, rounded
down once. -/
theorem C112_exact (hi : env.PdaInjective) {P k : Key} {s0 s s' : Chain} {es0 es : List Event} {L L' : Ledger} {n r : Nat}
    {accs accs' : List AccountInfo} {w w' : World} {ret : Option Nat} {p' : Pool} {m : Mining} (hg : Genesis env s0)
    (h0 : LedgerRuns env P s0 [] es0 s L) (hs : RealSigners accs) (hc : NotPoolAsMining env s.world accs .claim)
    (h1 : exec env s.now s.world accs .claim = .ok (w, ret)) (hP : poolArg accs .claim = some P)
    (hk : miningArg accs .claim = some k) (hmid : s.now ≠ midnight s.now)
    (hd : DividendRuns env P k ⟨s.now, w⟩ L es s' L' n) (hsp : RunsWith env (fun _ e => Spares k e) ⟨s.now, w⟩ es s')
    (hs' : RealSigners accs') (hc' : NotPoolAsMining env s'.world accs' .claim)
    (h2 : exec env s'.now s'.world accs' .claim = .ok (w', some r)) (hP' : poolArg accs' .claim = some P)
    (hk' : miningArg accs' .claim = some k) (hmid' : s'.now ≠ midnight s'.now) (hp' : PoolAt env s'.world P p')
    (hroom : p'.cumulative.length < env.caps.index) (hm : MiningAt env w k m) (hex : ∀ x ∈ m.diffs, midnight s'.now < x.1) :
    r = n / 10 ^ 16 := by
  obtain ⟨m1, g1, g2, g3⟩ := C112_between hi hg h0 hs hc h1 hP hk hmid hd hsp hs' hc' h2 hP' hk' hmid' hp' hroom
  obtain rfl := MiningAt.unique hm g1
  have : expiredCount m (midnight s'.now) = 0 := by
    unfold expiredCount
    rw [List.filter_eq_nil_iff.mpr fun x hx => by have := hex x hx; simp; omega]
    rfl
  omega

end

/-! ### Concrete cases -/

section Examples
open Demo

/-- Two stakers; some time after the first distribution the second one claims. -/
def settling : List (Event × Nat) :=
  founded ++ [(initMining 100 121, 0), (deposit 100 121 300 .oneYear 121, 0), (.tick DAY, 0), (distribute 100, 0), (.tick 10, 0)]

def afterSettling : Chain × Ledger := (ledgerRun 100 s0 [] settling).getD (s0, [])

def firstClaim : World := (afterSettling.1.apply Demo.env (claim 100 121 131)).world

/-- The second staker waits while the first one stakes more, claims, and the rewards of three days are distributed. -/
def waiting : List (Event × Nat) :=
  [(.tick DAY, 0), (distribute 100, 0), (deposit 100 120 70 .threeMonths 120, 0), (claim 100 120 130, 0), (.tick DAY, 0),
   (distribute 100, 0), (.tick DAY, 0), (distribute 100, 0), (.tick DAY, 0)]

def afterWaiting : Chain × Ledger :=
  (ledgerRun 100 ⟨afterSettling.1.now, firstClaim⟩ afterSettling.2 waiting).getD afterSettling

theorem afterWaiting_eq : ledgerRun 100 ⟨afterSettling.1.now, firstClaim⟩ afterSettling.2 waiting =
    some (afterWaiting.1, afterWaiting.2) := by
  have : (ledgerRun 100 ⟨afterSettling.1.now, firstClaim⟩ afterSettling.2 waiting).isSome = true := by decide +kernel
  unfold afterWaiting
  revert this
  generalize ledgerRun 100 ⟨afterSettling.1.now, firstClaim⟩ afterSettling.2 waiting = r
  cases r <;> simp

/-- The accounts of the second staker's claim. -/
def claimAccounts : List AccountInfo :=
  [R 100, R 101, W (vaultOf 100 101), W (mine 121 100), S 121, S 110, W 131, R 2]

/-- What a claim with these accounts pays. -/
def paysB (s : Chain) (P : Nat → Bool) : Bool :=
  match exec Demo.env s.now s.world claimAccounts .claim with
  | .ok (_, some r) => P r
  | _ => false

theorem paysB_sound {s : Chain} {P : Nat → Bool} (h : paysB s P = true) :
    ∃ w' r, exec Demo.env s.now s.world claimAccounts .claim = .ok (w', some r) ∧ P r = true := by
  unfold paysB at h
  cases hx : exec Demo.env s.now s.world claimAccounts .claim with
  | error e => rw [hx] at h; cases h
  | ok x =>
    obtain ⟨w', ret⟩ := x
    rw [hx] at h
    cases ret with
    | none => cases h
    | some r => exact ⟨w', r, rfl, h⟩

/-- The hypotheses hold for the second staker, whose second claim pays more than 10000 tokens. -/
example : ∃ (n r : Nat) (w' : World) (ret : Option Nat) (p' : Pool) (m : Mining),
    Demo.env.PdaInjective ∧ Genesis Demo.env s0 ∧
    LedgerRuns Demo.env 100 s0 [] (settling.map (·.1)) afterSettling.1 afterSettling.2 ∧
    RealSigners claimAccounts ∧ NotPoolAsMining Demo.env afterSettling.1.world claimAccounts .claim ∧
    exec Demo.env afterSettling.1.now afterSettling.1.world claimAccounts .claim = .ok (firstClaim, ret) ∧
    poolArg claimAccounts .claim = some 100 ∧ miningArg claimAccounts .claim = some (mine 121 100) ∧
    afterSettling.1.now ≠ midnight afterSettling.1.now ∧
    DividendRuns Demo.env 100 (mine 121 100) ⟨afterSettling.1.now, firstClaim⟩ afterSettling.2 (waiting.map (·.1))
      afterWaiting.1 afterWaiting.2 n ∧
    RunsWith Demo.env (fun _ e => Spares (mine 121 100) e) ⟨afterSettling.1.now, firstClaim⟩ (waiting.map (·.1))
      afterWaiting.1 ∧
    NotPoolAsMining Demo.env afterWaiting.1.world claimAccounts .claim ∧
    exec Demo.env afterWaiting.1.now afterWaiting.1.world claimAccounts .claim = .ok (w', some r) ∧
    afterWaiting.1.now ≠ midnight afterWaiting.1.now ∧ PoolAt Demo.env afterWaiting.1.world 100 p' ∧
    p'.cumulative.length < Demo.env.caps.index ∧ MiningAt Demo.env firstClaim (mine 121 100) m ∧
    (∀ x ∈ m.diffs, midnight afterWaiting.1.now < x.1) ∧ m.diffs ≠ [] ∧ 10000 < r := by
  have h1 := okEvent_sound (show okEvent afterSettling.1 (claim 100 121 131) = true by decide +kernel)
  obtain ⟨ret, h2⟩ := exec_of_ok (show okEvent afterSettling.1 (.ix claimAccounts .claim) = true by decide +kernel)
  have h3 := okEvent_sound (show okEvent afterWaiting.1 (claim 100 121 131) = true by decide +kernel)
  obtain ⟨w', r, h4, h5⟩ := paysB_sound (show paysB afterWaiting.1 (fun r => decide (10000 < r)) = true by decide +kernel)
  obtain ⟨p', h6, h7⟩ := hasPool_sound (show hasPool afterWaiting.1.world 100
    (fun p => decide (p.cumulative.length < Demo.env.caps.index)) = true by decide +kernel)
  obtain ⟨m, h8, h9⟩ := hasMining_sound (show hasMining firstClaim (mine 121 100)
    (fun m => decide ((∀ x ∈ m.diffs, midnight afterWaiting.1.now < x.1) ∧ m.diffs ≠ [])) = true by decide +kernel)
  obtain ⟨h9, h10⟩ := of_decide_eq_true h9
  have h11 := dividendOf_sound (s' := afterWaiting.1) (L' := afterWaiting.2) (k := mine 121 100) afterWaiting_eq
  have h12 := (sparesB_sound h11.ledger.clean (show sparesB (mine 121 100) (waiting.map (·.1)) = true by decide +kernel)).weaken
    (C' := fun _ e => Spares (mine 121 100) e) (fun _ _ h => h.2)
  exact ⟨_, r, w', ret, p', m, env_injective, s0_genesis, ledgerRun_eq (by decide +kernel), h1.1, h1.2, h2, rfl, rfl,
    by decide +kernel, h11, h12, h3.2, h4, by decide +kernel, h6, of_decide_eq_true h7, h8, h9, h10, of_decide_eq_true h5⟩

end Examples

end Verif
