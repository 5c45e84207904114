import Verif.Spec.Incentive
import Verif.Lemmas.DemoOrderly
/-!
Checking by evaluation the hypotheses about two concrete histories with the same events.
-/

namespace Verif

open Spec Demo

def sparesOneB (k : Key) : Event → Bool
  | .ix accs _ => accs.all fun a => decide (a.key ≠ k) || !a.isWritable
  | _ => true

/-- The state after a list of events. -/
def endOf (s : Chain) (es : List Event) : Chain := es.foldl (fun s e => s.apply Demo.env e) s

/-- Every event passes a check. -/
def allPass (c : Chain → Event → Bool) : Chain → List Event → Bool
  | _, [] => true
  | s, e :: es => c s e && allPass c (s.apply Demo.env e) es

theorem allPass_sound {c : Chain → Event → Bool} {C : Chain → Event → Prop}
    (h : ∀ s e, c s e = true → e.Valid Demo.env s ∧ C s e) {s : Chain} {es : List Event} (hc : allPass c s es = true) :
    RunsWith Demo.env C s es (endOf s es) := by
  induction es generalizing s with
  | nil => exact .nil _
  | cons e es ih =>
    simp only [allPass, Bool.and_eq_true] at hc
    exact .cons (h s e hc.1).1 (h s e hc.1).2 (ih hc.2)

theorem allPass_alike {c c' : Chain → Event → Bool} (h : ∀ s e, c s e = true → okEvent s e = true)
    (h' : ∀ s e, c' s e = true → okEvent s e = true) {s t : Chain} {es : List Event} (hc : allPass c s es = true)
    (hc' : allPass c' t es = true) : Alike Demo.env SameEvent s t es es := by
  induction es generalizing s t with
  | nil => trivial
  | cons e es ih =>
    simp only [allPass, Bool.and_eq_true] at hc hc'
    refine ⟨Or.inl rfl, ?_, ih hc.2 hc'.2⟩
    cases e with
    | ix accs i =>
      obtain ⟨r, h1⟩ := exec_of_ok (h _ _ hc.1)
      obtain ⟨r', h2⟩ := exec_of_ok (h' _ _ hc'.1)
      simp [goesThrough, succeeded, h1, h2]
    | _ => rfl

def poolRoomB (s : Chain) (P : Key) (l : LockupPeriod) : Bool :=
  match (s.world P).content, terms l with
  | .pool p, some (_, n) => decide ((∃ x ∈ p.diffs, x.1 = midnight s.now + 86400 * n) ∨ p.diffs.length < Demo.env.caps.pool)
  | _, _ => true

def roomInPoolB (P : Key) (s : Chain) : Event → Bool
  | .ix _ (.depositMining _ l _ _) => poolRoomB s P l
  | .ix _ (.extendStake _ l _ _ _ _ _) => poolRoomB s P l
  | _ => true

theorem roomInPoolB_sound {P : Key} {s : Chain} {e : Event} (h : roomInPoolB P s e = true) :
    RoomInPool Demo.env P s e := by
  have key : ∀ {l p k n}, poolRoomB s P l = true → PoolAt Demo.env s.world P p → terms l = some (k, n) →
      HasRoom Demo.env.caps.pool p.diffs (midnight s.now + 86400 * n) := by
    intro l p k n h hp hl
    simp only [poolRoomB, hp.2, hl] at h
    simpa [HasRoom] using h
  cases e with
  | ix accs i =>
    cases i <;> first | trivial | exact fun _ p k n hp hl => key h hp hl
  | _ => trivial

def cleanB (P k : Key) (s : Chain) (e : Event) : Bool := okEvent s e && roomInPoolB P s e && sparesOneB k e

def tidyB (P V k : Key) (s : Chain) (e : Event) : Bool := orderlyB P V s e && cleanB P k s e

theorem sparesOneB_sound {k : Key} {e : Event} (h : sparesOneB k e = true) : Spares k e := by
  cases e with
  | ix accs i =>
    intro a ha hk
    have := List.all_eq_true.mp h a ha
    simpa [hk] using this
  | _ => trivial

theorem cleanB_sound {P k : Key} (s : Chain) (e : Event) (h : cleanB P k s e = true) :
    e.Valid Demo.env s ∧ (CleanEvent Demo.env s e ∧ RoomInPool Demo.env P s e ∧ Spares k e) := by
  simp only [cleanB, Bool.and_eq_true] at h
  obtain ⟨⟨h1, h2⟩, h3⟩ := h
  exact ⟨(okEvent_sound h1).1, (okEvent_sound h1).2, roomInPoolB_sound h2, sparesOneB_sound h3⟩

theorem tidyB_sound {P V k : Key} (s : Chain) (e : Event) (h : tidyB P V k s e = true) :
    e.Valid Demo.env s ∧ (Orderly Demo.env P V s e ∧ RoomInPool Demo.env P s e ∧ Spares k e) := by
  simp only [tidyB, Bool.and_eq_true] at h
  obtain ⟨h1, h2⟩ := h
  obtain ⟨k1, -, k2⟩ := cleanB_sound s e h2
  exact ⟨k1, (orderlyB_sound h1).2, k2⟩

theorem cleanB_ok {P k : Key} (s : Chain) (e : Event) (h : cleanB P k s e = true) : okEvent s e = true := by
  simp only [cleanB, Bool.and_eq_true] at h; exact h.1.1

theorem tidyB_ok {P V k : Key} (s : Chain) (e : Event) (h : tidyB P V k s e = true) : okEvent s e = true := by
  simp only [tidyB, Bool.and_eq_true] at h; exact cleanB_ok s e h.2

theorem apply_eta {s : Chain} {accs : List AccountInfo} {i : Ix} {w : World} {r : Option Nat}
    (h : exec Demo.env s.now s.world accs i = .ok (w, r)) :
    s.apply Demo.env (.ix accs i) = ⟨s.now, w⟩ := apply_ix_ok h

/-- Two histories with the same events after different instructions. -/
theorem two_histories {c c' : Chain → Event → Bool} {C C' : Chain → Event → Prop}
    (hC : ∀ s e, c s e = true → e.Valid Demo.env s ∧ C s e) (hC' : ∀ s e, c' s e = true → e.Valid Demo.env s ∧ C' s e)
    (hok : ∀ s e, c s e = true → okEvent s e = true) (hok' : ∀ s e, c' s e = true → okEvent s e = true) {s : Chain}
    {accs : List AccountInfo} {i j : Ix} {es : List Event} (o1 : okEvent s (.ix accs i) = true)
    (o2 : okEvent s (.ix accs j) = true) (c1 : allPass c (s.apply Demo.env (.ix accs i)) es = true)
    (c2 : allPass c' (s.apply Demo.env (.ix accs j)) es = true) :
    ∃ w1 w2 r1 r2, exec Demo.env s.now s.world accs i = .ok (w1, r1) ∧ exec Demo.env s.now s.world accs j = .ok (w2, r2) ∧
      Alike Demo.env SameEvent ⟨s.now, w1⟩ ⟨s.now, w2⟩ es es ∧ Alike Demo.env SameEvent ⟨s.now, w2⟩ ⟨s.now, w1⟩ es es ∧
      RunsWith Demo.env C ⟨s.now, w1⟩ es (endOf s (.ix accs i :: es)) ∧
      RunsWith Demo.env C' ⟨s.now, w2⟩ es (endOf s (.ix accs j :: es)) := by
  obtain ⟨r1, h1⟩ := exec_of_ok o1
  obtain ⟨r2, h2⟩ := exec_of_ok o2
  refine ⟨_, _, r1, r2, h1, h2, ?_, ?_, ?_, ?_⟩
  · rw [← apply_eta h1, ← apply_eta h2]; exact allPass_alike hok hok' c1 c2
  · rw [← apply_eta h1, ← apply_eta h2]; exact allPass_alike hok' hok c2 c1
  · rw [← apply_eta h1]; exact allPass_sound hC c1
  · rw [← apply_eta h2]; exact allPass_sound hC' c2

theorem roomInMiningB_sound {s : Chain} {M : Key} {l : LockupPeriod}
    (h : hasMining s.world M (fun m => roomB Demo.env.caps s.now m l) = true) : RoomInMining Demo.env M s l := by
  intro m k n hm ht
  obtain ⟨m', hm', hb⟩ := hasMining_sound h
  rw [MiningAt.unique hm hm']
  exact roomB_sound hb k n ht

end Verif
