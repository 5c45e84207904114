import Verif.Lemmas.Gifts
import Verif.Lemmas.Incentive
import Verif.Lemmas.DemoIncentive
import Verif.Props.Incentive
/-!
C97: lamports and tokens that are sent to accounts.
-/

namespace Verif

open Spec

section
variable {env : Env} {f g : Key → Nat}

/-- **C97**.  Somebody sends any amounts of lamports and tokens to any accounts (pools, minings, vaults, users).  An instruction that
would have succeeded still does, with the same return data, and leaves exactly the same accounts, except that they have the gifts
in addition; only CloseMining moves a gift, from the mining to the account that receives its lamports.  Not covered are gifts to an
address at which the instruction creates an account (see `C59_prefunded_false`). -/
theorem C97_instruction {now : Nat} {w w' : World} {accs : List AccountInfo} {i : Ix} {r : Option Nat}
    (hf : Fits accs (gifted w f g)) (hc : ∀ k, creates accs i = some k → f k = 0 ∧ g k = 0)
    (hm : ∀ a ∈ accs, a.isWritable = false → giftsAfter f accs i a.key = f a.key)
    (h : exec env now w accs i = .ok (w', r)) :
    exec env now (gifted w f g) accs i = .ok (gifted w' (giftsAfter f accs i) g, r) :=
  gifted_exec hf hc hm h

theorem giftsAfter_same {accs : List AccountInfo} {i : Ix}
    (h : i = .closeMining → ∀ k, accs[0]?.map (·.key) = some k → f k = 0) : giftsAfter f accs i = f := by
  cases i with
  | closeMining =>
    match accs with
    | M :: O :: T :: rest =>
      have h0 : f M.key = 0 := h rfl _ rfl
      funext k
      simp only [giftsAfter, h0]
      split
      · rename_i e; rw [e, h0]
      · split <;> rfl
    | [] => rfl
    | [_] => rfl
    | [_, _] => rfl
  | _ => rfl

theorem gifted_event {s : Chain} {e : Event} (hv : e.Valid env s) (h : Undisturbed env f g s e) :
    (giftEvent f g e).Valid env ⟨s.now, gifted s.world f g⟩ ∧
    goesThrough env ⟨s.now, gifted s.world f g⟩ (giftEvent f g e) = true ∧
    Chain.apply env ⟨s.now, gifted s.world f g⟩ (giftEvent f g e) = ⟨(s.apply env e).now, gifted (s.apply env e).world f g⟩ ∧
    ∀ k, claimedBy env k ⟨s.now, gifted s.world f g⟩ (giftEvent f g e) = claimedBy env k s e := by
  cases e with
  | ix accs i =>
    obtain ⟨h1, h2, h3, h4⟩ := h
    unfold succeeded at h1
    split at h1
    · rename_i x hx
      obtain ⟨w', r⟩ := x
      have hs := giftsAfter_same h4
      have hy : exec env s.now (gifted s.world f g) accs i = .ok (gifted w' f g, r) := by
        have := gifted_exec h2 h3 (fun a _ _ => by rw [hs]) hx
        rwa [hs] at this
      refine ⟨hv, ?_, ?_, fun k => ?_⟩
      · simp [goesThrough, giftEvent, succeeded, hy]
      · show Chain.apply env ⟨s.now, gifted s.world f g⟩ (.ix accs i) = _
        rw [apply_ix_ok hx, apply_ix_ok (s := ⟨s.now, gifted s.world f g⟩) hy]
      · simp only [giftEvent, claimedBy, hx, hy]
    · cases h1
  | tick d => exact ⟨trivial, rfl, rfl, fun _ => rfl⟩
  | gc k =>
    obtain ⟨h1, h2⟩ := h
    have hv : (s.world k).lamports = 0 := hv
    refine ⟨?_, rfl, ?_, fun _ => rfl⟩
    · show (s.world k).lamports + f k = 0
      omega
    · show (⟨s.now, (gifted s.world f g).set k _⟩ : Chain) = ⟨s.now, gifted (s.world.set k _) f g⟩
      rw [gifted_set, h1, h2]
      rfl
  | ext w =>
    have hv : ExtOk env s.world w := hv
    refine ⟨?_, rfl, rfl, fun _ => rfl⟩
    show ExtOk env (gifted s.world f g) (gifted w f g)
    refine ⟨fun k ho => ?_, fun k h1 h2 => ?_, fun k h1 h2 => ?_, fun k h1 h2 => hv.pda_token k h1 h2⟩
    · obtain ⟨a1, a2, a3, a4⟩ := hv.program_owned k ho
      refine ⟨a1, a2, ?_, Nat.add_le_add_right a4 _⟩
      show addTokens _ (w k).content = addTokens _ (s.world k).content
      rw [a3]
    · obtain ⟨a1, a2⟩ := hv.new_zero k h1 h2
      refine ⟨?_, a2⟩
      show addTokens _ (w k).content = _
      rw [a1]
      rfl
    · obtain ⟨a1, a2, a3⟩ := hv.pda_system k h1 h2
      refine ⟨a1, a2, ?_⟩
      show addTokens _ (w k).content = addTokens _ (s.world k).content
      rw [a3]

/-- C97 for whole histories: in a history in which everything succeeds, no account is created or removed at an address to which
something was sent, and no mining is closed to which lamports were sent, gifts at the beginning change nothing: everything still
succeeds, everybody is paid the same, and at the end all accounts are the same except for the gifts. -/
theorem C97_history {s s' : Chain} {es : List Event} (h : RunsWith env (Undisturbed env f g) s es s') :
    RunsWith env (fun t e => goesThrough env t e = true) ⟨s.now, gifted s.world f g⟩ (es.map (giftEvent f g))
      ⟨s'.now, gifted s'.world f g⟩ ∧
    ∀ k, totalIn env (claimedBy env k) ⟨s.now, gifted s.world f g⟩ (es.map (giftEvent f g)) =
      totalIn env (claimedBy env k) s es := by
  induction h with
  | nil s => exact ⟨.nil _, fun _ => rfl⟩
  | @cons s s' e es hv hd _ ih =>
    obtain ⟨h1, h2, h3, h4⟩ := gifted_event hv hd
    obtain ⟨h5, h6⟩ := ih
    refine ⟨.cons h1 h2 (by rw [h3]; exact h5), fun k => ?_⟩
    have := h6 k
    simp only [List.map, totalIn, h4 k]
    rw [h3, this]

end

open Demo

/-- Lamports for the pool, a mining and the payer; tokens for the vault and a user. -/
def giftL : Key → Nat := fun k => if k = 100 then 7 else if k = mine 120 100 then 1000 else if k = 102 then 5 else 0
def giftT : Key → Nat := fun k => if k = vaultOf 100 101 then 123456 else if k = 130 then 9 else 0

def fitsB (accs : List AccountInfo) (w : World) : Bool := accs.all fun a => accs.all fun b => decide (a.key = b.key) ||
  (decide ((w a.key).lamports + (w b.key).lamports < 2 ^ 64) &&
    decide (tokensTogether (w a.key).content (w b.key).content < 2 ^ 64))

theorem fitsB_sound {accs : List AccountInfo} {w : World} (h : fitsB accs w = true) : Fits accs w := by
  intro a ha b hb hne
  simp only [fitsB, List.all_eq_true, Bool.or_eq_true, Bool.and_eq_true, decide_eq_true_eq] at h
  exact (h a ha b hb).resolve_left hne

def undisturbedB (f g : Key → Nat) (s : Chain) : Event → Bool
  | .ix accs i => okEvent s (.ix accs i) && fitsB accs (gifted s.world f g) &&
      (match creates accs i with | some k => decide (f k = 0) && decide (g k = 0) | none => true) &&
      (match accs with | M :: _ => decide (f M.key = 0) || !(match i with | .closeMining => true | _ => false) | [] => true)
  | .gc k => okEvent s (.gc k) && decide (f k = 0) && decide (g k = 0)
  | .tick _ => true
  | .ext _ => false

theorem undisturbedB_sound (f g : Key → Nat) (s : Chain) (e : Event) (h : undisturbedB f g s e = true) :
    e.Valid Demo.env s ∧ Undisturbed Demo.env f g s e := by
  cases e with
  | ix accs i =>
    simp only [undisturbedB, Bool.and_eq_true] at h
    obtain ⟨⟨⟨h1, h2⟩, h3⟩, h4⟩ := h
    obtain ⟨r, hx⟩ := exec_of_ok h1
    refine ⟨(okEvent_sound h1).1, by simp [succeeded, hx], fitsB_sound h2, fun k hk => ?_, fun hi k hk => ?_⟩
    · rw [hk] at h3
      simpa using h3
    · subst hi
      cases accs with
      | nil => cases hk
      | cons M rest =>
        simp at h4 hk
        rw [← hk]; exact h4
  | tick d => exact ⟨trivial, trivial⟩
  | gc k =>
    simp only [undisturbedB, Bool.and_eq_true, decide_eq_true_eq] at h
    exact ⟨(okEvent_sound h.1.1).1, h.1.2, h.2⟩
  | ext w => cases h

/-- Before a mining is closed. -/
def unused : Chain := endOf s0 [initPool 100, initMining 100 120]

/-- Non-vacuity: the mining of user 120 is closed after gifts to it, to the pool, to the vault and to the account that receives its lamports. -/
example : ∃ w' r, exec Demo.env unused.now (gifted unused.world giftL giftT)
        [W (mine 120 100), S 120, W 102, S 110, R 100] .closeMining =
      .ok (gifted w' (giftsAfter giftL [W (mine 120 100), S 120, W 102, S 110, R 100] .closeMining) giftT, r) ∧
    exec Demo.env unused.now unused.world [W (mine 120 100), S 120, W 102, S 110, R 100] .closeMining = .ok (w', r) := by
  have ho : okEvent unused (.ix [W (mine 120 100), S 120, W 102, S 110, R 100] .closeMining) = true := by decide +kernel
  obtain ⟨r, hx⟩ := exec_of_ok ho
  exact ⟨_, r, C97_instruction (fitsB_sound (by decide +kernel)) (fun _ h => by cases h) (by decide +kernel) hx, hx⟩

/-- Non-vacuity: a longer history after gifts, in which a pool is filled, distributes, pays, and a mining is created and closed. -/
def giftedLife : List Event :=
  [initMining 100 122, fill 100 1000 (day0 + 86400 * 40), .tick 86400, distribute 100, claim 100 120 130, close 100 122,
    claim 100 121 131]

example : RunsWith Demo.env (Undisturbed Demo.env giftL giftT) afterStory giftedLife (endOf afterStory giftedLife) :=
  allPass_sound (undisturbedB_sound giftL giftT) (by decide +kernel)

end Verif
