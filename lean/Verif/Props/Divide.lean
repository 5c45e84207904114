import Verif.Lemmas.DivideTo
import Verif.Lemmas.DemoIncentive
import Verif.Props.Incentive
import Verif.Props.Reduce
/-!
C94: how an amount is divided among minings.
-/

namespace Verif

open Spec

section
variable {env : Env}

/-- **C94** (partial).  Somebody deposits an amount for one period into minings of theirs, without delegating; `x` and `y` are
two ways of dividing it among deposits and minings.  Afterwards the same happens (only what other programs do to the lamports of
these minings may differ), with instructions that do not name these minings.  Then the two histories end the same outside of the
minings, to the last field of the pool and of everybody else's mining, and the minings are together owed the same, except for
roundings: up to one token per mining and end of lock-up period that had passed but was not accounted for before.
Missing for the full property: delegated deposits (see `C94_delegated_partial`), full tables of the minings (see
`C94_full_table_false`), minings whose recorded ends exceed their weight (after slashing). -/
theorem C94_divided_partial {s t1 t2 s1 s2 : Chain} {x y es es' : List Event} {P : Key} {ks : List Key} {l : LockupPeriod}
    {p : Pool} (hs : Reachable env s) (hp : PoolAt env s.world P p) (hpl : 0 < (s.world P).lamports) (hks : ks.Nodup)
    (hm : ∀ j ∈ ks, 0 < (s.world j).lamports ∧ ∃ m, Member env s.world P j m ∧ Backed m)
    (hx0 : x ≠ []) (hy0 : y ≠ []) (hx : RunsWith env (DepositInto env P l ks) s x t1)
    (hy : RunsWith env (DepositInto env P l ks) s y t2) (hxy : (x.map amountOf).sum = (y.map amountOf).sum)
    (hr1 : RunsWith env (fun s e => CleanEvent env s e ∧ Avoids ks e) t1 es s1)
    (hr2 : RunsWith env (fun s e => CleanEvent env s e ∧ Avoids ks e) t2 es' s2) (hee : AllSameBut ks es es') :
    s1.now = s2.now ∧ (∀ k, k ∉ ks → s1.world k = s2.world k) ∧
    (∀ j ∈ ks, ∃ m1 m2, Member env s1.world P j m1 ∧ Member env s2.world P j m2) ∧ ∃ p', PoolAt env s1.world P p' ∧
      owedTotal env s1.world P p'.cumulative ks ≤ owedTotal env s2.world P p'.cumulative ks +
        10 ^ 16 * sumOver (ofMember env s.world P fun m => expiredCount m (midnight s.now) + 1) ks ∧
      owedTotal env s2.world P p'.cumulative ks ≤ owedTotal env s1.world P p'.cumulative ks +
        10 ^ 16 * sumOver (ofMember env s.world P fun m => expiredCount m (midnight s.now) + 1) ks := by
  have hw := reachable_wf hs
  obtain ⟨k, n, ht⟩ : ∃ k n, terms l = some (k, n) := by
    cases hx with
    | nil => exact absurd rfl hx0
    | @cons _ _ e _ hv hd _ =>
      cases e with
      | ix accs i =>
        cases i with
        | depositMining a l' o d =>
          obtain ⟨rfl, h1, -⟩ := hd
          unfold succeeded at h1
          split at h1
          · rename_i r hx
            obtain ⟨_, _, _, _, _, k, n, _, ht, _⟩ := C17_deposit (w' := r.1) (ret := r.2) hw hv hx
            exact ⟨k, n, ht⟩
          · cases h1
        | _ => exact hd.elim
      | _ => exact hd.elim
  obtain ⟨d1, c1⟩ := divided hks ht hx hw hp hx0
  obtain ⟨d2, c2⟩ := divided hks ht hy hw hp hy0
  rw [← hxy] at d2
  have hPk : P ∉ ks := by
    intro h
    obtain ⟨-, m, hm, -⟩ := hm P h
    exact PoolAt.not_mining hp hm.1
  have hoff : Off ks t1 t2 := by
    refine ⟨d1.now.trans d2.now.symm, fun j hj => ?_⟩
    by_cases hjP : j = P
    · subst hjP
      obtain ⟨a1, a2, a3⟩ := d1.shell j
      obtain ⟨b1, b2, b3⟩ := d2.shell j
      have e1 := d1.pool.2
      have e2 := d2.pool.2
      exact account_same (a1.trans b1.symm) (a2.trans b2.symm) (a3.trans b3.symm) (e1.trans e2.symm)
    · rw [d1.others j hjP hj, d2.others j hjP hj]
  have hoff' := off_runs hoff hee (runs_each (hr1.weaken fun _ _ h => h.2)) (hr1.weaken fun _ _ _ => trivial)
    (hr2.weaken fun _ _ _ => trivial)
  have hw1 := wf_runs hw (fun _ _ h => h) c1
  obtain ⟨p', ext, e1, e2, e3, e4⟩ := runs_longer (hr1.weaken fun _ _ h => h.1) hw1 d1.pool
    (by rw [(d1.shell P).2.1]; exact hpl)
  rw [d1.now] at e4
  have sp : ∀ {t u : Chain} {zs : List Event} {q : Pool}, Divided env P ks k n s t p q (x.map amountOf).sum →
      RunsWith env (fun s e => CleanEvent env s e ∧ Avoids ks e) t zs u →
      ∀ j ∈ ks, ∀ m, MiningAt env t.world j m → MiningAt env u.world j m := by
    intro t u zs q hd hr j hj m hmj
    exact runs_spared (hr.weaken fun _ _ h => avoids_spares h.2 hj) hmj (by rw [(hd.shell j).2.1]; exact (hm j hj).1)
  refine ⟨hoff'.1, hoff'.2, ?_, p', e1, ?_, ?_⟩
  · intro j hj
    obtain ⟨-, m, hmj, -⟩ := hm j hj
    obtain ⟨_, f1, -⟩ := d1.minings
    obtain ⟨_, f2, -⟩ := d2.minings
    obtain ⟨m1, g1, -⟩ := f1 j hj m hmj
    obtain ⟨m2, g2, -⟩ := f2 j hj m hmj
    exact ⟨m1, m2, ⟨sp d1 hr1 j hj _ g1.1, g1.2⟩, ⟨sp d2 hr2 j hj _ g2.1, g2.2⟩⟩
  · exact divided_le (p := p) e3 e2 e4 hw (fun j hj => (hm j hj).2) d1.minings d2.minings (sp d1 hr1) (sp d2 hr2)
  · exact divided_le (p := p) e3 e2 e4 hw (fun j hj => (hm j hj).2) d2.minings d1.minings (sp d2 hr2) (sp d1 hr1)

/-- **C94** (partial), for stake that is delegated: the same, where all deposits are delegated to one mining `D` outside of `ks`
that has been credited all that is visible.  The histories agree in the mining of the delegate, too, to the last field, and it may
take part in what happens afterwards.
Missing for the full property: delegates that are not up to date (see `C94_stale_delegate_false`) or among the minings `ks`, and
what is missing in `C94_divided_partial`. -/
theorem C94_delegated_partial {s t1 t2 s1 s2 : Chain} {x y es es' : List Event} {P D : Key} {ks : List Key} {l : LockupPeriod}
    {p : Pool} {d : Mining} (hs : Reachable env s) (hp : PoolAt env s.world P p) (hpl : 0 < (s.world P).lamports) (hks : ks.Nodup)
    (hd : MiningAt env s.world D d) (hi : d.index = indexBefore p.cumulative s.now)
    (hm : ∀ j ∈ ks, 0 < (s.world j).lamports ∧ ∃ m, Member env s.world P j m ∧ Backed m)
    (hx0 : x ≠ []) (hy0 : y ≠ []) (hx : RunsWith env (DepositTo env P l D ks) s x t1)
    (hy : RunsWith env (DepositTo env P l D ks) s y t2) (hxy : (x.map amountOf).sum = (y.map amountOf).sum)
    (hr1 : RunsWith env (fun s e => CleanEvent env s e ∧ Avoids ks e) t1 es s1)
    (hr2 : RunsWith env (fun s e => CleanEvent env s e ∧ Avoids ks e) t2 es' s2) (hee : AllSameBut ks es es') :
    s1.now = s2.now ∧ (∀ k, k ∉ ks → s1.world k = s2.world k) ∧
    (∀ j ∈ ks, ∃ m1 m2, Member env s1.world P j m1 ∧ Member env s2.world P j m2) ∧ ∃ p', PoolAt env s1.world P p' ∧
      owedTotal env s1.world P p'.cumulative ks ≤ owedTotal env s2.world P p'.cumulative ks +
        10 ^ 16 * sumOver (ofMember env s.world P fun m => expiredCount m (midnight s.now) + 1) ks ∧
      owedTotal env s2.world P p'.cumulative ks ≤ owedTotal env s1.world P p'.cumulative ks +
        10 ^ 16 * sumOver (ofMember env s.world P fun m => expiredCount m (midnight s.now) + 1) ks := by
  have hw := reachable_wf hs
  obtain ⟨k, n, ht⟩ : ∃ k n, terms l = some (k, n) := by
    cases hx with
    | nil => exact absurd rfl hx0
    | @cons _ _ e _ hv hd _ =>
      cases e with
      | ix accs i =>
        cases i with
        | depositMining a l' o d =>
          obtain ⟨rfl, h1, -⟩ := hd
          unfold succeeded at h1
          split at h1
          · rename_i r hx
            obtain ⟨_, _, _, _, _, k, n, _, ht, _⟩ := C17_deposit (w' := r.1) (ret := r.2) hw hv hx
            exact ⟨k, n, ht⟩
          · cases h1
        | _ => exact hd.elim
      | _ => exact hd.elim
  obtain ⟨d1, c1⟩ := dividedTo hks ht hx hw hp hd hi hx0
  obtain ⟨d2, c2⟩ := dividedTo hks ht hy hw hp hd hi hy0
  rw [← hxy] at d2
  have hoff : Off ks t1 t2 := by
    refine ⟨d1.now.trans d2.now.symm, fun j hj => ?_⟩
    obtain ⟨a1, a2, a3⟩ := d1.shell j
    obtain ⟨b1, b2, b3⟩ := d2.shell j
    by_cases hjP : j = P
    · subst hjP
      exact account_same (a1.trans b1.symm) (a2.trans b2.symm) (a3.trans b3.symm) (d1.pool.2.trans d2.pool.2.symm)
    · by_cases hjD : j = D
      · subst hjD
        exact account_same (a1.trans b1.symm) (a2.trans b2.symm) (a3.trans b3.symm) (d1.delegate.2.trans d2.delegate.2.symm)
      · rw [d1.others j hjP hjD hj, d2.others j hjP hjD hj]
  have hoff' := off_runs hoff hee (runs_each (hr1.weaken fun _ _ h => h.2)) (hr1.weaken fun _ _ _ => trivial)
    (hr2.weaken fun _ _ _ => trivial)
  have hw1 := wf_runs hw (fun _ _ h => h) c1
  obtain ⟨p', ext, e1, e2, e3, e4⟩ := runs_longer (hr1.weaken fun _ _ h => h.1) hw1 d1.pool
    (by rw [(d1.shell P).2.1]; exact hpl)
  rw [d1.now] at e4
  have sp : ∀ {t u : Chain} {zs : List Event}, (∀ j, (t.world j).lamports = (s.world j).lamports) →
      RunsWith env (fun s e => CleanEvent env s e ∧ Avoids ks e) t zs u →
      ∀ j ∈ ks, ∀ m, MiningAt env t.world j m → MiningAt env u.world j m := by
    intro t u zs hd hr j hj m hmj
    exact runs_spared (hr.weaken fun _ _ h => avoids_spares h.2 hj) hmj (by rw [hd j]; exact (hm j hj).1)
  have sp1 := sp (fun j => (d1.shell j).2.1) hr1
  have sp2 := sp (fun j => (d2.shell j).2.1) hr2
  refine ⟨hoff'.1, hoff'.2, ?_, p', e1, ?_, ?_⟩
  · intro j hj
    obtain ⟨-, m, hmj, -⟩ := hm j hj
    obtain ⟨_, f1, -⟩ := d1.minings
    obtain ⟨_, f2, -⟩ := d2.minings
    obtain ⟨m1, g1, -⟩ := f1 j hj m hmj
    obtain ⟨m2, g2, -⟩ := f2 j hj m hmj
    exact ⟨m1, m2, ⟨sp1 j hj _ g1.1, g1.2⟩, ⟨sp2 j hj _ g2.1, g2.2⟩⟩
  · exact divided_le (p := p) e3 e2 e4 hw (fun j hj => (hm j hj).2) d1.minings d2.minings sp1 sp2
  · exact divided_le (p := p) e3 e2 e4 hw (fun j hj => (hm j hj).2) d2.minings d1.minings sp2 sp1

end

open Demo

/-- The minings of users 120 and 121. -/
def bothMinings : List Key := [mine 120 100, mine 121 100]

def intoB (P : Key) (l : LockupPeriod) (ks : List Key) (s : Chain) : Event → Bool
  | .ix accs (.depositMining a l' o d) => decide (l' = l) && okEvent s (.ix accs (.depositMining a l' o d)) &&
      decide (poolArg accs (.depositMining a l' o d) = some P) &&
      ks.any fun M => decide (miningArg accs (.depositMining a l' o d) = some M) &&
        decide (delegateArg accs (.depositMining a l' o d) = some M) &&
        hasMining s.world M (fun m => roomB Demo.env.caps s.now m l)
  | _ => false

theorem intoB_sound {P : Key} {l : LockupPeriod} {ks : List Key} (s : Chain) (e : Event) (h : intoB P l ks s e = true) :
    e.Valid Demo.env s ∧ DepositInto Demo.env P l ks s e := by
  cases e with
  | ix accs i =>
    cases i with
    | depositMining a l' o d =>
      simp only [intoB, Bool.and_eq_true, decide_eq_true_eq, List.any_eq_true] at h
      obtain ⟨⟨⟨h1, h2⟩, h3⟩, M, h4, ⟨h5, h6⟩, h7⟩ := h
      obtain ⟨r, hx⟩ := exec_of_ok h2
      exact ⟨(okEvent_sound h2).1, h1, by simp [succeeded, hx], h3, M, h4, h5, h6, roomInMiningB_sound h7⟩
    | _ => cases h
  | _ => cases h

def avoidsB (ks : List Key) (s : Chain) (e : Event) : Bool := okEvent s e && (match e with
  | .ix accs _ => accs.all fun a => decide (a.key ∉ ks)
  | _ => true)

theorem avoidsB_sound {ks : List Key} (s : Chain) (e : Event) (h : avoidsB ks s e = true) :
    e.Valid Demo.env s ∧ (CleanEvent Demo.env s e ∧ Avoids ks e) := by
  simp only [avoidsB, Bool.and_eq_true] at h
  refine ⟨(okEvent_sound h.1).1, (okEvent_sound h.1).2, ?_⟩
  cases e with
  | ix accs i => exact fun a ha => of_decide_eq_true (List.all_eq_true.mp h.2 a ha)
  | _ => trivial

theorem allSameBut_self (ks : List Key) (es : List Event) : AllSameBut ks es es := by
  induction es with
  | nil => trivial
  | cons e es ih => exact ⟨Or.inl rfl, ih⟩

/-- One deposit of 3000, or three deposits of 3000 in total into two minings. -/
def inOne : List Event := [deposit 100 120 3000 .threeMonths 120]
def inThree : List Event :=
  [deposit 100 121 1500 .threeMonths 121, deposit 100 120 1000 .threeMonths 120, deposit 100 121 500 .threeMonths 121]

def afterDividing : List Event :=
  [.tick DAY, distribute 100, .tick 10, deposit 100 122 700 .threeMonths 122, withdraw 100 122 100 122, .tick DAY,
    distribute 100, .tick (10 * DAY), distribute 100]

/-- `C94_divided_partial` applies: users 120 and 121 have 3000 tokens to deposit, user 121 has a stake already. -/
example : ∃ t1 t2 s1 s2, Reachable Demo.env beforeThree ∧ 0 < (beforeThree.world 100).lamports ∧ bothMinings.Nodup ∧
    (∀ j ∈ bothMinings, 0 < (beforeThree.world j).lamports ∧ ∃ m, Member Demo.env beforeThree.world 100 j m ∧ Backed m) ∧
    RunsWith Demo.env (DepositInto Demo.env 100 .threeMonths bothMinings) beforeThree inOne t1 ∧
    RunsWith Demo.env (DepositInto Demo.env 100 .threeMonths bothMinings) beforeThree inThree t2 ∧
    (inOne.map amountOf).sum = (inThree.map amountOf).sum ∧
    RunsWith Demo.env (fun s e => CleanEvent Demo.env s e ∧ Avoids bothMinings e) t1 afterDividing s1 ∧
    RunsWith Demo.env (fun s e => CleanEvent Demo.env s e ∧ Avoids bothMinings e) t2 afterDividing s2 ∧
    AllSameBut bothMinings afterDividing afterDividing ∧
    hasMining s1.world (mine 120 100) (fun m1 => hasMining s2.world (mine 120 100) (fun m2 =>
      hasPool s1.world 100 (fun p => decide (owed m2 p.cumulative < owed m1 p.cumulative ∧
        10 ^ 16 * 1000 < owedTotal Demo.env s1.world 100 p.cumulative bothMinings)))) = true := by
  refine ⟨_, _, _, _, after_reachable (by decide +kernel), by decide +kernel, by decide +kernel, ?_,
    allPass_sound intoB_sound (by decide +kernel), allPass_sound intoB_sound (by decide +kernel), by decide,
    allPass_sound avoidsB_sound (by decide +kernel), allPass_sound avoidsB_sound (by decide +kernel), allSameBut_self _ _,
    by decide +kernel⟩
  intro j hj
  have key : bothMinings.all (fun j => decide (0 < (beforeThree.world j).lamports) &&
      memberB beforeThree.world 100 j fun m => decide (total m.diffs ≤ m.share)) = true := by decide +kernel
  have := List.all_eq_true.mp key j hj
  simp only [Bool.and_eq_true, decide_eq_true_eq] at this
  obtain ⟨m, h1, h2⟩ := memberB_sound this.2
  exact ⟨this.1, m, h1, by simpa [Backed] using h2⟩

/-- User 120 fills the table of their mining. -/
def fullMining : List Event := [initPool 100, initMining 100 120, initMining 100 121, initMining 100 122] ++
  longTerm 120 25 ++ [fill 100 1000000 (day0 + 500 * DAY)]

/-- Three months later the pool distributes. -/
def threeMonthsLater : List Event := [.tick (100 * DAY), distribute 100]

def divisionB (s : Chain) : Bool :=
  let x := deposit 100 120 1000 .threeMonths 120 :: threeMonthsLater
  let y := deposit 100 121 1000 .threeMonths 121 :: threeMonthsLater
  allPass okEvent s x && allPass okEvent s y && hasPool (endOf s x).world 100 (fun p1 =>
    hasPool (endOf s y).world 100 (fun p2 => decide (p1 = p2 ∧
      owedTotal Demo.env (endOf s y).world 100 p2.cumulative bothMinings + 10 ^ 16 * 700 <
        owedTotal Demo.env (endOf s x).world 100 p1.cumulative bothMinings)))

theorem division : (match run s0 fullMining with | some s => divisionB s | none => false) = true := by decide +kernel

/-- C94 is false with a full table: 1000 tokens that user 120 deposits into their crowded mining count for ever with the
multiplier there, since their end has been dropped; in the mining of user 121 they would count for three months.  The same pool
in the end owes the two minings over 700 tokens more. -/
theorem C94_full_table_false : ∃ s s1 s2 p, Reachable Demo.env s ∧
    RunsWith Demo.env (CleanEvent Demo.env) s (deposit 100 120 1000 .threeMonths 120 :: threeMonthsLater) s1 ∧
    RunsWith Demo.env (CleanEvent Demo.env) s (deposit 100 121 1000 .threeMonths 121 :: threeMonthsLater) s2 ∧
    PoolAt Demo.env s1.world 100 p ∧ PoolAt Demo.env s2.world 100 p ∧
    owedTotal Demo.env s2.world 100 p.cumulative bothMinings + 10 ^ 16 * 700 <
      owedTotal Demo.env s1.world 100 p.cumulative bothMinings := by
  have h := division
  split at h
  · rename_i s hs
    simp only [divisionB, Bool.and_eq_true] at h
    obtain ⟨⟨h1, h2⟩, h⟩ := h
    obtain ⟨p1, hp1, h⟩ := hasPool_sound h
    obtain ⟨p2, hp2, h⟩ := hasPool_sound h
    obtain ⟨rfl, h⟩ := of_decide_eq_true h
    exact ⟨s, _, _, p1, reachable hs, allPass_sound (fun _ _ h => okEvent_sound h) h1,
      allPass_sound (fun _ _ h => okEvent_sound h) h2, hp1, hp2, h⟩
  · cases h

/-! Deposits delegated to user 122. -/

def intoToB (P : Key) (l : LockupPeriod) (D : Key) (ks : List Key) (s : Chain) : Event → Bool
  | .ix accs (.depositMining a l' o d) => decide (l' = l) && okEvent s (.ix accs (.depositMining a l' o d)) &&
      decide (poolArg accs (.depositMining a l' o d) = some P) &&
      decide (delegateArg accs (.depositMining a l' o d) = some D) && decide (D ∉ ks) &&
      ks.any fun M => decide (miningArg accs (.depositMining a l' o d) = some M) &&
        hasMining s.world M (fun m => roomB Demo.env.caps s.now m l)
  | _ => false

theorem intoToB_sound {P D : Key} {l : LockupPeriod} {ks : List Key} (s : Chain) (e : Event) (h : intoToB P l D ks s e = true) :
    e.Valid Demo.env s ∧ DepositTo Demo.env P l D ks s e := by
  cases e with
  | ix accs i =>
    cases i with
    | depositMining a l' o d =>
      simp only [intoToB, Bool.and_eq_true, decide_eq_true_eq, List.any_eq_true] at h
      obtain ⟨⟨⟨⟨⟨h1, h2⟩, h3⟩, h5⟩, h6⟩, M, h4, h7, h8⟩ := h
      obtain ⟨r, hx⟩ := exec_of_ok h2
      exact ⟨(okEvent_sound h2).1, h1, by simp [succeeded, hx], h3, h5, h6, M, h4, h7, roomInMiningB_sound h8⟩
    | _ => cases h
  | _ => cases h

/-- User 122 is brought up to date by a deposit of their own. -/
def trustedBefore : List Event := threeBefore ++ [deposit 100 122 200 .threeMonths 122]
def beforeTrust : Chain := (run s0 trustedBefore).getD s0

def toOne : List Event := [deposit 100 120 3000 .threeMonths 122]
def toThree : List Event :=
  [deposit 100 121 1500 .threeMonths 122, deposit 100 120 1000 .threeMonths 122, deposit 100 121 500 .threeMonths 122]

/-- `C94_delegated_partial` applies. -/
example : ∃ p d t1 t2 s1 s2, Reachable Demo.env beforeTrust ∧ PoolAt Demo.env beforeTrust.world 100 p ∧
    0 < (beforeTrust.world 100).lamports ∧ bothMinings.Nodup ∧
    MiningAt Demo.env beforeTrust.world (mine 122 100) d ∧ d.index = indexBefore p.cumulative beforeTrust.now ∧ 0 < d.index ∧
    (∀ j ∈ bothMinings, 0 < (beforeTrust.world j).lamports ∧ ∃ m, Member Demo.env beforeTrust.world 100 j m ∧ Backed m) ∧
    RunsWith Demo.env (DepositTo Demo.env 100 .threeMonths (mine 122 100) bothMinings) beforeTrust toOne t1 ∧
    RunsWith Demo.env (DepositTo Demo.env 100 .threeMonths (mine 122 100) bothMinings) beforeTrust toThree t2 ∧
    (toOne.map amountOf).sum = (toThree.map amountOf).sum ∧
    RunsWith Demo.env (fun s e => CleanEvent Demo.env s e ∧ Avoids bothMinings e) t1 afterDividing s1 ∧
    RunsWith Demo.env (fun s e => CleanEvent Demo.env s e ∧ Avoids bothMinings e) t2 afterDividing s2 ∧
    AllSameBut bothMinings afterDividing afterDividing ∧
    hasMining s1.world (mine 122 100) (fun m1 => hasPool s1.world 100 (fun p => decide (m1.stakeFromOthers = 3000 ∧
        10 ^ 16 * 1000 < owedTotal Demo.env s1.world 100 p.cumulative bothMinings))) = true := by
  have hu : hasPool beforeTrust.world 100 (fun p => hasMining beforeTrust.world (mine 122 100) (fun d =>
      decide (d.index = indexBefore p.cumulative beforeTrust.now ∧ 0 < d.index))) = true := by decide +kernel
  obtain ⟨p, hp, hu⟩ := hasPool_sound hu
  obtain ⟨d, hd, hu⟩ := hasMining_sound hu
  obtain ⟨hi, hpos⟩ := of_decide_eq_true hu
  refine ⟨p, d, _, _, _, _, after_reachable (by decide +kernel), hp, by decide +kernel, by decide +kernel, hd, hi, hpos, ?_,
    allPass_sound intoToB_sound (by decide +kernel), allPass_sound intoToB_sound (by decide +kernel), by decide,
    allPass_sound avoidsB_sound (by decide +kernel), allPass_sound avoidsB_sound (by decide +kernel), allSameBut_self _ _,
    by decide +kernel⟩
  intro j hj
  have key : bothMinings.all (fun j => decide (0 < (beforeTrust.world j).lamports) &&
      memberB beforeTrust.world 100 j fun m => decide (total m.diffs ≤ m.share)) = true := by decide +kernel
  have := List.all_eq_true.mp key j hj
  simp only [Bool.and_eq_true, decide_eq_true_eq] at this
  obtain ⟨m, h1, h2⟩ := memberB_sound this.2
  exact ⟨this.1, m, h1, by simpa [Backed] using h2⟩

/-- User 122 has no stake of their own when the pool distributes. -/
def staleDivisionB (s : Chain) : Bool :=
  allPass okEvent s toOne && allPass okEvent s toThree && hasPool (endOf s toOne).world 100 (fun p1 =>
    hasPool (endOf s toThree).world 100 (fun p2 => hasMining (endOf s toOne).world (mine 122 100) (fun m1 =>
      hasMining (endOf s toThree).world (mine 122 100) (fun m2 =>
        decide (p1 = p2 ∧ owed m2 p1.cumulative + 10 ^ 16 * 100 < owed m1 p1.cumulative)))))

theorem stale_division : (match run s0 threeBefore with | some s => staleDivisionB s | none => false) = true := by decide +kernel

/-- C94 is false for a delegate that is not up to date: 3000 tokens delegated to user 122 in one deposit bring them over 100 tokens
more, at once, than the same amount in three deposits. -/
theorem C94_stale_delegate_false : ∃ s s1 s2 p m1 m2, Reachable Demo.env s ∧
    RunsWith Demo.env (CleanEvent Demo.env) s toOne s1 ∧ RunsWith Demo.env (CleanEvent Demo.env) s toThree s2 ∧
    (toOne.map amountOf).sum = (toThree.map amountOf).sum ∧
    PoolAt Demo.env s1.world 100 p ∧ PoolAt Demo.env s2.world 100 p ∧
    MiningAt Demo.env s1.world (mine 122 100) m1 ∧ MiningAt Demo.env s2.world (mine 122 100) m2 ∧
    owed m2 p.cumulative + 10 ^ 16 * 100 < owed m1 p.cumulative := by
  have h := stale_division
  split at h
  · rename_i s hs
    simp only [staleDivisionB, Bool.and_eq_true] at h
    obtain ⟨⟨h1, h2⟩, h⟩ := h
    obtain ⟨p1, hp1, h⟩ := hasPool_sound h
    obtain ⟨p2, hp2, h⟩ := hasPool_sound h
    obtain ⟨m1, hm1, h⟩ := hasMining_sound h
    obtain ⟨m2, hm2, h⟩ := hasMining_sound h
    obtain ⟨e, h9⟩ := of_decide_eq_true h
    subst e
    exact ⟨s, _, _, p1, m1, m2, reachable hs, allPass_sound (fun _ _ h => okEvent_sound h) h1,
      allPass_sound (fun _ _ h => okEvent_sound h) h2, by decide, hp1, hp2, hm1, hm2, h9⟩
  · cases h

end Verif
