import Verif.Lemmas.Outsider
import Verif.Lemmas.DemoOrderly
/-!
C73: what nobody can do without the right signatures, over whole histories.
-/

namespace Verif

open Spec

section
variable {env : Env}

/-- C73, the authorities of a pool.  As long as none of the three authorities of the pool signs, and its minings are not passed
as unverified arguments to instructions for other pools, its data stays exactly the same, and so does the data of each of its
minings; the only minings it gains are empty ones. -/
theorem C73_authorities (hinj : env.PdaInjective) {P : Key} {p : Pool} {s s' : Chain} {es : List Event}
    (hw : Wf env s.now s.world) (hr : RunsWith env (Outside env P p) s es s') (hp : PoolAt env s.world P p)
    (hl : 0 < (s.world P).lamports) :
    PoolAt env s'.world P p ∧
      (∀ k m, Member env s.world P k m → 0 < (s.world k).lamports → Member env s'.world P k m) ∧
      (∀ k m, Member env s'.world P k m → Member env s.world P k m ∨ Fresh m) := by
  obtain ⟨h1, h2, h3⟩ := runs_outside hinj hr hw hp hl
  exact ⟨h1, fun k m hm hk => (h2 k m hm hk).1, h3⟩

/-- C73, the owner of a mining.  As long as they do not sign, their mining is neither closed nor given another owner or pool,
nothing is paid from it, and the rewards credited to it do not become fewer, whoever else signs and whatever arguments they
pass. -/
theorem C73_owner {k : Key} {m : Mining} {s s' : Chain} {es : List Event} (hw : Wf env s.now s.world)
    (hr : RunsWith env (NotSignedBy env m.owner) s es s') (hm : MiningAt env s.world k m) (ht : m.accountType = 2)
    (hl : 0 < (s.world k).lamports) :
    ∃ m', MiningAt env s'.world k m' ∧ m'.owner = m.owner ∧ m'.rewardPool = m.rewardPool ∧ m'.accountType = 2 ∧
      m.unclaimed ≤ m'.unclaimed ∧ totalIn env (claimedBy env k) s es = 0 := by
  obtain ⟨m', h1, h2, h3, h4⟩ := runs_unsigned hr hw rfl hm ht hl
  exact ⟨m', h1, h2.owner, h2.rewardPool, h2.accountType.trans ht, h3, h4⟩

/-- C73, the owner of a token account (a vault's, a staker's or anybody's).  An instruction takes tokens out of it only if its
owner or its SPL delegate signs. -/
theorem C73_tokens {now : Nat} {w w' : World} {accs : List AccountInfo} {i : Ix} {ret : Option Nat}
    (hw : Wf env now w) (hs : RealSigners accs) (hclean : NotPoolAsMining env w accs i)
    (h : exec env now w accs i = .ok (w', ret)) {V : Key} {t : TokenAcc} (ht : TokenAt env w V t) :
    ∃ t', TokenAt env w' V t' ∧
      (t'.amount < t.amount → Signed accs t.owner ∨ ∃ d, t.delegate = some d ∧ Signed accs d) :=
  (step_of_exec hw hs hclean h).drawn ht

/-- C73, the same over whole histories: the account does not lose a token. -/
theorem C73_vault {V : Key} {t : TokenAcc} {s s' : Chain} {es : List Event} (hw : Wf env s.now s.world)
    (hr : RunsWith env (NotDrawn env V) s es s') (ht : TokenAt env s.world V t) :
    ∃ t', TokenAt env s'.world V t' ∧ t.amount ≤ t'.amount :=
  runs_drawn hr hw ht

end

/-! ### Concrete cases -/

section Examples
open Demo

def signedB (accs : List AccountInfo) (k : Key) : Bool := accs.any fun a => a.isSigner && decide (a.key = k)

theorem signedB_iff {accs : List AccountInfo} {k : Key} : signedB accs k = true ↔ Signed accs k := by
  simp only [signedB, List.any_eq_true, Bool.and_eq_true, decide_eq_true_eq, Signed]
  constructor
  · rintro ⟨a, h1, h2, h3⟩; exact ⟨a, h1, h3, h2⟩
  · rintro ⟨a, h1, h2, h3⟩; exact ⟨a, h1, h3, h2⟩

/-- None of the listed wallets signs, no outside changes, no removal, and no instruction with unverified arguments. -/
def strangersB (ks : List Key) : Event → Bool
  | .ix accs i => ks.all (fun k => !signedB accs k) &&
      match i with | .changeDelegate .. | .closeMining => false | _ => true
  | .tick _ => true
  | _ => false

theorem strangers_outside {P : Key} {p : Pool} {s : Chain} {e : Event} {ks : List Key} (hc : CleanEvent Demo.env s e)
    (h : strangersB ks e = true) (h1 : p.depositAuthority ∈ ks) (h2 : p.distributeAuthority ∈ ks) (h3 : p.fillAuthority ∈ ks) :
    Outside Demo.env P p s e := by
  cases e with
  | ix accs i =>
    simp only [strangersB, Bool.and_eq_true, List.all_eq_true, Bool.not_eq_true'] at h
    have no : ∀ k ∈ ks, ¬ Signed accs k := fun k hk hs => by
      have := h.1 k hk; rw [signedB_iff.mpr hs] at this; cases this
    refine ⟨hc, ⟨no _ h1, no _ h2, no _ h3⟩, ?_⟩
    intro k m _ hh
    have h4 := h.2
    rcases hh with hh | ⟨rfl, -⟩
    · cases i <;> first | (cases hh; done) | (cases h4; done)
    · cases h4
  | _ => trivial

theorem strangers_unsigned {o : Key} {s : Chain} {e : Event} {ks : List Key} (hc : CleanEvent Demo.env s e)
    (h : strangersB ks e = true) (h1 : o ∈ ks) : NotSignedBy Demo.env o s e := by
  cases e with
  | ix accs i =>
    simp only [strangersB, Bool.and_eq_true, List.all_eq_true, Bool.not_eq_true'] at h
    exact ⟨hc, fun hs => by have := h.1 o h1; rw [signedB_iff.mpr hs] at this; cases this⟩
  | _ => trivial

theorem strangers_run {C : Chain → Event → Prop} {s s' : Chain} {es : List Event} {ks : List Key}
    (hr : RunsWith Demo.env (CleanEvent Demo.env) s es s') (h : es.all (strangersB ks) = true)
    (hC : ∀ s e, CleanEvent Demo.env s e → strangersB ks e = true → C s e) : RunsWith Demo.env C s es s' := by
  induction hr with
  | nil => exact .nil _
  | cons hv hc _ ih =>
    simp only [List.all_cons, Bool.and_eq_true] at h
    exact .cons hv (hC _ _ hc h.1) (ih h.2)

/-- A stranger opens a pool of their own (with the same mint), makes their own deposits there, and opens an empty mining in the
pool at 100. -/
def strangers : List Event := [initPoolBy 200 140, initMining 200 120, initMining 100 122, .tick DAY,
  depositBy 200 140 120 500 .flex 120, .tick 5]

/-- The hypotheses of `C73_authorities` are met in a state with stakes, rewards and a filled vault. -/
example : ∃ s' p, PoolAt Demo.env afterStory.world 100 p ∧ RunsWith Demo.env (Outside Demo.env 100 p) afterStory strangers s' ∧
    0 < p.tokensAvailable ∧ 0 < (afterStory.world 100).lamports := by
  obtain ⟨p, hp, h⟩ := hasPool_sound (f := fun p => decide (p.depositAuthority = 110 ∧ p.distributeAuthority = 111 ∧
    p.fillAuthority = 112 ∧ 0 < p.tokensAvailable)) (show hasPool afterStory.world 100 _ = true by decide +kernel)
  simp only [decide_eq_true_eq] at h
  obtain ⟨s', hr⟩ := some_run (s := afterStory) (es := strangers) (by decide +kernel)
  refine ⟨s', p, hp, strangers_run (ks := [110, 111, 112]) hr (by decide +kernel) fun s e hc hs =>
    strangers_outside hc hs (by simp [h.1]) (by simp [h.2.1]) (by simp [h.2.2.1]), h.2.2.2, by decide +kernel⟩

/-- The first story, after which the second staker takes part of their stake back. -/
def credited : Chain := (run s0 (story ++ [withdraw 100 121 10 121])).getD s0

/-- What others do meanwhile. -/
def meanwhile : List Event := [slash 100 121 10 10 none, .tick DAY, distribute 100, withdraw 100 121 50 121, claim 100 120 130]

/-- The hypotheses of `C73_owner` are met by a mining with credited rewards while its stake is changed and rewards are
distributed. -/
example : ∃ s' m, MiningAt Demo.env credited.world (mine 121 100) m ∧ m.accountType = 2 ∧ 0 < m.unclaimed ∧
    RunsWith Demo.env (NotSignedBy Demo.env m.owner) credited meanwhile s' ∧ 0 < (credited.world (mine 121 100)).lamports := by
  obtain ⟨m, hm, h⟩ := hasMining_sound (f := fun m => decide (m.accountType = 2 ∧ m.owner = 121 ∧ 0 < m.unclaimed))
    (show hasMining credited.world (mine 121 100) _ = true by decide +kernel)
  simp only [decide_eq_true_eq] at h
  obtain ⟨s', hr⟩ := some_run (s := credited) (es := meanwhile) (by decide +kernel)
  exact ⟨s', m, hm, h.1, h.2.2, strangers_run (ks := [121]) hr (by decide +kernel) fun s e hc hs =>
    strangers_unsigned hc hs (by simp [h.2.1]), by decide +kernel⟩

/-- A claim that pays takes tokens from the vault, whose owner signs: the case `C73_tokens` is about. -/
example : ∃ w' ret, Wf Demo.env afterStory.now afterStory.world ∧
    exec Demo.env afterStory.now afterStory.world [R 100, R 101, W (vaultOf 100 101), W (mine 121 100), S 121, S 110, W 131, R 2]
      .claim = .ok (w', ret) ∧
    (∃ t, TokenAt Demo.env afterStory.world (vaultOf 100 101) t ∧ 0 < t.amount ∧ t.owner = 110) ∧ ret ≠ some 0 := by
  obtain ⟨t, ht, h⟩ := hasToken_sound (f := fun t => decide (0 < t.amount ∧ t.owner = 110))
    (show hasToken afterStory.world (vaultOf 100 101) _ = true by decide +kernel)
  obtain ⟨w', h1, -, -, ret, h2⟩ := succeeds afterStory_reachable
    (show okEvent afterStory (claim 100 121 131) = true by decide +kernel)
  refine ⟨w', ret, h1, h2, ⟨t, ht, of_decide_eq_true h⟩, ?_⟩
  rintro rfl
  have h3 : (match exec Demo.env afterStory.now afterStory.world
      [R 100, R 101, W (vaultOf 100 101), W (mine 121 100), S 121, S 110, W 131, R 2] .claim with
    | .ok (_, some 0) => true | _ => false) = false := by decide +kernel
  rw [h2] at h3; cases h3

/-- Executable version of `NotDrawn` for histories without outside changes. -/
def undrawn (V : Key) : Chain → List Event → Bool
  | _, [] => true
  | s, e :: es => (match e with
      | .ix accs _ => (match (s.world V).content with
        | .token t => !signedB accs t.owner && decide (t.delegate = none)
        | _ => false)
      | .tick _ => true
      | _ => false) && undrawn V (s.apply Demo.env e) es

theorem undrawn_sound {V : Key} {s s' : Chain} {es : List Event} (hr : RunsWith Demo.env (CleanEvent Demo.env) s es s')
    (h : undrawn V s es = true) : RunsWith Demo.env (NotDrawn Demo.env V) s es s' := by
  induction hr with
  | nil => exact .nil _
  | @cons s s' e es hv hc _ ih =>
    simp only [undrawn, Bool.and_eq_true] at h
    refine .cons hv ?_ (ih h.2)
    have h1 := h.1
    cases e with
    | ix accs i =>
      refine ⟨hc, fun t ht => ?_⟩
      simp only [ht.2, Bool.and_eq_true, Bool.not_eq_true', decide_eq_true_eq] at h1
      exact ⟨fun hs => (by rw [signedB_iff.mpr hs] at h1; cases h1.1), fun d hd => (by rw [h1.2] at hd; cases hd)⟩
    | tick => trivial
    | gc => cases h1
    | ext => cases h1

/-- The hypotheses of `C73_vault` are met by a filled vault. -/
example : ∃ s' t, TokenAt Demo.env afterStory.world (vaultOf 100 101) t ∧ 0 < t.amount ∧
    RunsWith Demo.env (NotDrawn Demo.env (vaultOf 100 101)) afterStory
      [initMining 100 122, .tick DAY, distribute 100, fill 100 50 (day0 + 10 * DAY)] s' := by
  obtain ⟨t, ht, h⟩ := hasToken_sound (f := fun t => decide (0 < t.amount))
    (show hasToken afterStory.world (vaultOf 100 101) _ = true by decide +kernel)
  obtain ⟨s', hr⟩ := some_run (s := afterStory)
    (es := [initMining 100 122, .tick DAY, distribute 100, fill 100 50 (day0 + 10 * DAY)]) (by decide +kernel)
  exact ⟨s', t, ht, of_decide_eq_true h, undrawn_sound hr (by decide +kernel)⟩

end Examples

end Verif
