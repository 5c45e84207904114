import Verif.Spec.Ledger
import Verif.Lemmas.Solvency
import Verif.Props.Stake
/-!
Honest histories keep a pool's data in agreement with the ledger of stakes.
-/

namespace Verif

open Spec

variable {env : Env}

/-! ## Sums -/

theorem sum_perm {l l' : List Int} (h : l.Perm l') : l.sum = l'.sum := by
  induction h with
  | nil => rfl
  | cons a _ ih => simp [ih]
  | swap a b l => simp only [List.sum_cons]; omega
  | trans _ _ h1 h2 => exact h1.trans h2

theorem own_perm {L rest : Ledger} {y : StakeEntry} (h : L.Perm (y :: rest)) (k : Key) (x : Nat) :
    L.own k x = (if y.mining = k then y.worth x else 0) + Ledger.own rest k x := by
  unfold Ledger.own; rw [sum_perm (h.map _)]; simp

theorem lent_perm {L rest : Ledger} {y : StakeEntry} (h : L.Perm (y :: rest)) (k : Key) :
    L.lentTo k = (if y.delegate = k then y.lent else 0) + Ledger.lentTo rest k := by
  unfold Ledger.lentTo; rw [sum_perm (h.map _)]; simp

theorem all_perm {L rest : Ledger} {y : StakeEntry} (h : L.Perm (y :: rest)) (x : Nat) :
    L.all x = (y.worth x + y.lent) + Ledger.all rest x := by
  unfold Ledger.all; rw [sum_perm (h.map _)]; simp

theorem sum_zero {L : Ledger} {f : StakeEntry → Int} (h : ∀ y ∈ L, f y = 0) : (L.map f).sum = 0 := by
  induction L with
  | nil => rfl
  | cons y t ih =>
    simp only [List.map_cons, List.sum_cons]
    rw [h y (by simp), ih fun z hz => h z (by simp [hz])]; rfl

theorem sum_nonneg {L : Ledger} {f : StakeEntry → Int} (h : ∀ y, 0 ≤ f y) : 0 ≤ (L.map f).sum := by
  induction L with
  | nil => simp
  | cons y t ih => simp only [List.map_cons, List.sum_cons]; have := h y; omega

theorem sum_ge {L : Ledger} {f : StakeEntry → Int} (h : ∀ y, 0 ≤ f y) {y : StakeEntry} (hy : y ∈ L) :
    f y ≤ (L.map f).sum := by
  induction L with
  | nil => cases hy
  | cons z t ih =>
    simp only [List.map_cons, List.sum_cons]
    have h1 := h z
    have h2 := sum_nonneg (L := t) h
    rcases List.mem_cons.mp hy with rfl | hy
    · omega
    · have := ih hy; omega

theorem worth_nonneg (y : StakeEntry) (x : Nat) : 0 ≤ y.worth x := by
  unfold StakeEntry.worth
  split
  · exact Int.mul_nonneg (by omega) (by omega)
  · omega

theorem lent_nonneg (y : StakeEntry) : 0 ≤ y.lent := by unfold StakeEntry.lent; split <;> omega

theorem worth_zero {y : StakeEntry} (h : y.amount = 0) (x : Nat) : y.worth x = 0 := by
  unfold StakeEntry.worth; rw [h]; simp

theorem lent_zero {y : StakeEntry} (h : y.amount = 0) : y.lent = 0 := by
  unfold StakeEntry.lent; rw [h]; simp

theorem own_zero {L : Ledger} {k : Key} (h : ∀ y ∈ L, y.mining = k → y.amount = 0) (x : Nat) : L.own k x = 0 := by
  refine sum_zero fun y hy => ?_
  split
  · rename_i e; exact worth_zero (h y hy e) x
  · rfl

theorem lentTo_zero {L : Ledger} {k : Key} (h : ∀ y ∈ L, y.delegate = k → y.amount = 0) : L.lentTo k = 0 := by
  refine sum_zero fun y hy => ?_
  split
  · rename_i e; exact lent_zero (h y hy e)
  · rfl

theorem own_nonneg (L : Ledger) (k : Key) (x : Nat) : 0 ≤ L.own k x :=
  sum_nonneg fun y => by
    split
    · exact worth_nonneg y x
    · exact Int.le_refl _

theorem lentTo_ge {L : Ledger} {y : StakeEntry} (hy : y ∈ L) : y.lent ≤ L.lentTo y.delegate := by
  have := sum_ge (f := fun z : StakeEntry => if z.delegate = y.delegate then z.lent else 0) (fun z => by
    by_cases e : z.delegate = y.delegate
    · simpa [e] using lent_nonneg z
    · simp [e]) hy
  simpa [Ledger.lentTo] using this

theorem sum_single {ks : List Key} (hn : ks.Nodup) {j : Key} (hj : j ∈ ks) (c : Int) :
    (ks.map fun k => if j = k then c else 0).sum = c := by
  induction ks with
  | nil => cases hj
  | cons k t ih =>
    rw [List.nodup_cons] at hn
    simp only [List.map_cons, List.sum_cons]
    by_cases e : j = k
    · subst e
      have : (t.map fun k => if j = k then c else 0).sum = 0 := by
        have : ∀ t : List Key, j ∉ t → (t.map fun k => if j = k then c else 0).sum = 0 := by
          intro t
          induction t with
          | nil => intro _; rfl
          | cons a t ih =>
            intro h
            simp only [List.mem_cons, not_or] at h
            simp only [List.map_cons, List.sum_cons, if_neg h.1, ih h.2]; rfl
        exact this t hn.1
      rw [if_pos rfl, this]; omega
    · rw [if_neg e, ih hn.2 (by simpa [e] using hj)]; omega

theorem sum_map_add (ks : List Key) (f g : Key → Int) :
    (ks.map fun k => f k + g k).sum = (ks.map f).sum + (ks.map g).sum := by
  induction ks with
  | nil => rfl
  | cons k t ih => simp only [List.map_cons, List.sum_cons, ih]; omega

/-- The ledger's total is the sum over the minings. -/
theorem all_eq_sum {ks : List Key} (hn : ks.Nodup) {L : Ledger}
    (h : ∀ y ∈ L, 0 < y.amount → y.mining ∈ ks ∧ y.delegate ∈ ks) (x : Nat) :
    L.all x = (ks.map fun k => L.own k x + L.lentTo k).sum := by
  induction L with
  | nil =>
    have : (ks.map fun k => Ledger.own [] k x + Ledger.lentTo [] k).sum = 0 := by
      have : ∀ ks : List Key, (ks.map fun _ => (0 : Int)).sum = 0 := by
        intro ks
        induction ks with
        | nil => rfl
        | cons k t ih => simp only [List.map_cons, List.sum_cons, ih]; rfl
      exact this ks
    rw [this]; rfl
  | cons y t ih =>
    rw [all_perm (.refl _), ih fun z hz => h z (by simp [hz])]
    have e : (fun k => Ledger.own (y :: t) k x + Ledger.lentTo (y :: t) k) =
        fun k => ((if y.mining = k then y.worth x else 0) + (if y.delegate = k then y.lent else 0)) +
          (Ledger.own t k x + Ledger.lentTo t k) := by
      funext k
      rw [own_perm (.refl _), lent_perm (.refl _)]; omega
    rw [e, sum_map_add ks _ (fun k => Ledger.own t k x + Ledger.lentTo t k),
      sum_map_add ks (fun k => if y.mining = k then y.worth x else 0)]
    by_cases h0 : y.amount = 0
    · rw [worth_zero h0, lent_zero h0]
      have z : ∀ j : Key, (ks.map fun k => if j = k then (0 : Int) else 0).sum = 0 := by
        intro j
        have : ∀ ks : List Key, (ks.map fun k => if j = k then (0 : Int) else 0).sum = 0 := by
          intro ks
          induction ks with
          | nil => rfl
          | cons k t ih => simp only [List.map_cons, List.sum_cons, ih]; split <;> rfl
        exact this ks
      rw [z, z]
    · obtain ⟨h1, h2⟩ := h y (by simp) (Nat.pos_of_ne_zero h0)
      rw [sum_single hn h1, sum_single hn h2]

/-! ## The invariant -/

/-- The data of the pool at `P` and of its minings agree with the ledger. -/
structure Booked (env : Env) (now : Nat) (w : World) (P : Key) (L : Ledger) : Prop where
  weight : ∀ k m, Member env w P k m → ∀ x, midnight now ≤ x → weightOn m x = L.own k x
  lent : ∀ k m, Member env w P k m → (m.stakeFromOthers : Int) = L.lentTo k
  total : ∀ p, PoolAt env w P p → ∀ x, midnight now ≤ x → totalOn p x = L.all x
  known : ∀ y ∈ L, 0 < y.amount → (∃ m, Member env w P y.mining m) ∧ ∃ m, Member env w P y.delegate m
  aligned : ∀ y ∈ L, y.expires % 86400 = 0
  unused : (∀ p, ¬ PoolAt env w P p) → L = []

/-- Nothing happened to the stakes of the pool's minings. -/
structure Still (env : Env) (now : Nat) (w w' : World) (P : Key) (L : Ledger) : Prop where
  back : ∀ k m', Member env w' P k m' →
    (∃ m, Member env w P k m ∧ m'.stakeFromOthers = m.stakeFromOthers ∧
      ∀ x, midnight now ≤ x → weightOn m' x = weightOn m x) ∨ (Fresh m' ∧ ∀ m, ¬ Member env w P k m)
  keep : ∀ k m, Member env w P k m → (∃ m', Member env w' P k m') ∨
    ∀ y ∈ L, 0 < y.amount → y.mining ≠ k ∧ y.delegate ≠ k
  pool : ∀ p', PoolAt env w' P p' →
    (∃ p, PoolAt env w P p ∧ ∀ x, midnight now ≤ x → totalOn p' x = totalOn p x) ∨
    ((∀ p, ¬ PoolAt env w P p) ∧ ∀ x, totalOn p' x = 0)
  stays : (∀ p, ¬ PoolAt env w' P p) → ∀ p, ¬ PoolAt env w P p

theorem Booked.still {now : Nat} {w w' : World} {P : Key} {L : Ledger} (hb : Booked env now w P L)
    (h : Still env now w w' P L) : Booked env now w' P L := by
  have fresh : ∀ k, (∀ m, ¬ Member env w P k m) → ∀ y ∈ L, y.mining = k ∨ y.delegate = k → y.amount = 0 := by
    intro k hk y hy he
    refine Nat.eq_zero_of_not_pos fun hpos => ?_
    obtain ⟨⟨m, h1⟩, m', h2⟩ := hb.known y hy hpos
    rcases he with rfl | rfl
    · exact hk m h1
    · exact hk m' h2
  refine ⟨?_, ?_, ?_, ?_, hb.aligned, fun hn => hb.unused (h.stays hn)⟩
  · intro k m' hm' x hx
    rcases h.back k m' hm' with ⟨m, h1, -, h2⟩ | ⟨h1, h2⟩
    · rw [h2 x hx, hb.weight k m h1 x hx]
    · rw [own_zero fun y hy e => fresh k h2 y hy (Or.inl e)]
      simp [weightOn, h1.share, h1.diffs, dueBy]
  · intro k m' hm'
    rcases h.back k m' hm' with ⟨m, h1, h2, -⟩ | ⟨h1, h2⟩
    · rw [h2, hb.lent k m h1]
    · rw [lentTo_zero fun y hy e => fresh k h2 y hy (Or.inr e), h1.sfo]; rfl
  · intro p' hp' x hx
    rcases h.pool p' hp' with ⟨p, h1, h2⟩ | ⟨h1, h2⟩
    · rw [h2 x hx, hb.total p h1 x hx]
    · rw [h2, hb.unused h1]; rfl
  · intro y hy hpos
    obtain ⟨⟨m, h1⟩, m', h2⟩ := hb.known y hy hpos
    constructor
    · rcases h.keep _ m h1 with h3 | h3
      · exact h3
      · exact absurd rfl (h3 y hy hpos).1
    · rcases h.keep _ m' h2 with h3 | h3
      · exact h3
      · exact absurd rfl (h3 y hy hpos).2

theorem Shell.mining_back {w w' : World} {k : Key} {y : Mining} (h : Shell env (w k) (w' k)) (hy : MiningAt env w' k y)
    (hp : y.rewardPool ≠ 0) : ∃ m, MiningAt env w k m := by
  obtain ⟨h1, -, -, h4⟩ := h
  have ho : (w k).owner = env.programId := h1.symm.trans hy.1
  rcases h4 with h4 | ⟨-, ⟨p, p', -, h2⟩ | ⟨m', h2, h3⟩⟩
  · exact ⟨y, ho, h4.symm.trans hy.2⟩
  · have := hy.2; rw [h2] at this; cases this
  · have e := hy.2; rw [h2] at e; cases e
    rcases h3 with ⟨m, h3⟩ | ⟨-, h3⟩
    · exact ⟨m, ho, h3⟩
    · exact absurd h3.pool hp

/-- A stake operation of the pool. -/
theorem Booked.change {now : Nat} {w w' : World} {P : Key} {L L' : Ledger} (hb : Booked env now w P L) (hP0 : P ≠ 0)
    (shell : ∀ k, Shell env (w k) (w' k)) {own : Key → Nat → Int} {lent : Key → Int} {tot : Nat → Int}
    (hpool : ∃ p p', PoolAt env w P p ∧ PoolAt env w' P p' ∧
      ∀ x, midnight now ≤ x → totalOn p' x = totalOn p x + tot x)
    (hmin : ∀ k m, MiningAt env w k m → ∃ m', MiningAt env w' k m' ∧ SameIdentity m m' ∧
      (m'.stakeFromOthers : Int) = m.stakeFromOthers + lent k ∧
      ∀ x, midnight now ≤ x → weightOn m' x = weightOn m x + own k x)
    (hown : ∀ k x, midnight now ≤ x → L'.own k x = L.own k x + own k x)
    (hlent : ∀ k, L'.lentTo k = L.lentTo k + lent k)
    (hall : ∀ x, midnight now ≤ x → L'.all x = L.all x + tot x)
    (hknown : ∀ y ∈ L', 0 < y.amount → (∃ m, Member env w P y.mining m) ∧ ∃ m, Member env w P y.delegate m)
    (halign : ∀ y ∈ L', y.expires % 86400 = 0) : Booked env now w' P L' := by
  obtain ⟨p, p', hp, hp', htot⟩ := hpool
  have back : ∀ k m', Member env w' P k m' → ∃ m, Member env w P k m ∧
      (m'.stakeFromOthers : Int) = m.stakeFromOthers + lent k ∧
      ∀ x, midnight now ≤ x → weightOn m' x = weightOn m x + own k x := by
    intro k m' hm'
    obtain ⟨m, hm⟩ := (shell k).mining_back hm'.1 (by rw [hm'.2]; exact hP0)
    obtain ⟨m2, h1, h2, h3, h4⟩ := hmin k m hm
    obtain rfl := MiningAt.unique hm'.1 h1
    exact ⟨m, ⟨hm, h2.2.1.symm.trans hm'.2⟩, h3, h4⟩
  have keep : ∀ k, (∃ m, Member env w P k m) → ∃ m, Member env w' P k m := by
    rintro k ⟨m, hm⟩
    obtain ⟨m', h1, h2, -⟩ := hmin k m hm.1
    exact ⟨m', h1, h2.2.1.trans hm.2⟩
  refine ⟨?_, ?_, ?_, ?_, halign, fun hn => absurd hp' (hn p')⟩
  · intro k m' hm' x hx
    obtain ⟨m, h1, -, h3⟩ := back k m' hm'
    rw [h3 x hx, hown k x hx, hb.weight k m h1 x hx]
  · intro k m' hm'
    obtain ⟨m, h1, h2, -⟩ := back k m' hm'
    rw [h2, hlent k, hb.lent k m h1]
  · intro q hq x hx
    obtain rfl := PoolAt.unique hq hp'
    rw [htot x hx, hall x hx, hb.total p hp x hx]
  · intro y hy hpos
    obtain ⟨h1, h2⟩ := hknown y hy hpos
    exact ⟨keep _ h1, keep _ h2⟩

theorem Booked.stakes {now : Nat} {w w' : World} {P M D : Key} {L L' : Ledger} (hb : Booked env now w P L) (hP0 : P ≠ 0)
    (shell : ∀ k, Shell env (w k) (w' k)) {poolIf : Pool → Prop} {miningIf : Mining → Prop} {tot own : Nat → Int}
    {del : Int} (hc : StakesChange env now w w' P M D poolIf miningIf tot own del)
    {o : Key} (hm : IsMiningOf env w M o P) (hpi : ∀ p, PoolAt env w P p → poolIf p)
    (hmi : ∀ m, MiningAt env w M m → miningIf m)
    (hown : ∀ k x, midnight now ≤ x → L'.own k x = L.own k x + if k = M then own x else 0)
    (hlent : ∀ k, L'.lentTo k = L.lentTo k + if k = D ∧ k ≠ M then del else 0)
    (hall : ∀ x, midnight now ≤ x → L'.all x = L.all x + tot x)
    (hknown : ∀ y ∈ L', 0 < y.amount → (∃ m, Member env w P y.mining m) ∧ ∃ m, Member env w P y.delegate m)
    (halign : ∀ y ∈ L', y.expires % 86400 = 0) : Booked env now w' P L' := by
  obtain ⟨_, p, -, hp, -⟩ := hm
  obtain ⟨p', h1, -, -, -, h2⟩ := hc.pools P p hp
  refine hb.change hP0 shell ⟨p, p', hp, h1, fun x hx => h2 rfl (hpi p hp) x hx⟩ ?_ hown hlent hall hknown halign
  intro k m hk
  obtain ⟨m', g1, g2, -, g4, g5, g6⟩ := hc.minings k m hk
  refine ⟨m', g1, g2, g4, fun x hx => ?_⟩
  by_cases e : k = M
  · subst e; rw [if_pos rfl]; exact g5 rfl (hmi m hk) x hx
  · rw [if_neg e, g6 e x hx]; omega

/-! ## Instructions that do not change stakes -/

/-- The instruction does not concern the stakes of pool `P`. -/
def OtherIx (env : Env) (w : World) (P : Key) (L : Ledger) (accs : List AccountInfo) (i : Ix) : Prop :=
  isService i = true ∨
  (i = .closeMining ∧ ∀ y ∈ L, accs[0]?.map (·.key) = some y.mining → y.amount = 0) ∨
  (poolArg accs i ≠ some P ∧ i ≠ .closeMining ∧ ∀ D, oldDelegateArg accs i = some D → ∀ x, ¬ Member env w P D x)

theorem Step.still {now : Nat} {w w' : World} {accs : List AccountInfo} {i : Ix} {ret : Option Nat} {P : Key}
    {L : Ledger} (hi : env.PdaInjective) (hP0 : P ≠ 0) (hb : Booked env now w P L)
    (ho : OtherIx env w P L accs i) (h : Step env now w w' accs i ret) : Still env now w w' P L := by
  have tok : ∀ k j, (w k).owner = env.programId → (w j).owner = env.tokenProgram → k ≠ j := by
    rintro k j hk hj rfl; exact env.program_ne_token (hk.symm.trans hj)
  have sys : ∀ k j, (w k).owner = env.programId → (w j).owner = env.systemProgram → k ≠ j := by
    rintro k j hk hj rfl; exact env.program_ne_system (hk.symm.trans hj)
  have hstays : (∀ p, ¬ PoolAt env w' P p) → ∀ p, ¬ PoolAt env w P p := fun hn p hp => by
    obtain ⟨p', hp', -⟩ := h.pool hp
    exact hn p' hp'
  have hpoolEq : (∀ p, PoolAt env w P p → w' P = w P) → ∀ p', PoolAt env w' P p' →
      (∃ p, PoolAt env w P p ∧ ∀ x, midnight now ≤ x → totalOn p' x = totalOn p x) ∨
      ((∀ p, ¬ PoolAt env w P p) ∧ ∀ x, totalOn p' x = 0) := by
    intro hf p' hp'
    rcases h.newPool hp' with ⟨p, hp⟩ | ⟨f, d, Q, T, K, Y, A, rest, bump, -, -, -, rfl, hn0, -⟩
    · have e := hf p hp
      exact Or.inl ⟨p', (poolAt_congr e).mp hp', fun _ _ => rfl⟩
    · exact Or.inr ⟨hn0, fun x => by simp [totalOn, Pool.init, Pool.zero, dueBy]⟩
  have hframe : (∀ k y, Member env w P k y ∨ Member env w' P k y → w' k = w k) → (∀ p, PoolAt env w P p → w' P = w P) →
      Still env now w w' P L := by
    intro hm hf
    refine ⟨?_, ?_, hpoolEq hf, hstays⟩
    · intro k m' hm'
      have e := hm k m' (Or.inr hm')
      exact Or.inl ⟨m', ⟨(miningAt_congr e).mp hm'.1, hm'.2⟩, rfl, fun _ _ => rfl⟩
    · intro k m hk
      have e := hm k m (Or.inl hk)
      exact Or.inl ⟨m, (miningAt_congr e).mpr hk.1, hk.2⟩
  have old := h
  cases h with
  | @stake _ Q M A D q q' m m' d d' accs_eq op chk del quiet same sfo ok' sameDel eff shell written =>
    obtain ⟨a1, -, -⟩ := accs_eq.pool ⟨_, _, _, _, _, _, _, _, op⟩
    have e : Q.key ≠ P := by
      rcases ho with h1 | ⟨h1, -⟩ | ⟨h1, -⟩
      · cases i <;> first | exact op.elim | (simp [isService] at h1)
      · subst h1; exact op.elim
      · rintro rfl; exact h1 a1
    have hx : ∀ x, d = some x → x.rewardPool ≠ P := by
      intro x hx
      rcases (del x hx).pool hi with h1 | h1 <;> rw [h1]
      · exact e
      · exact Ne.symm hP0
    refine hframe ?_ ?_
    · intro k y hy
      by_cases e1 : k = Q.key
      · subst e1
        rcases hy with hy | hy
        · exact absurd hy.1 (PoolAt.not_mining eff.pool)
        · exact absurd hy.1 (PoolAt.not_mining eff.pool')
      by_cases e2 : k = M.key
      · subst e2
        rcases hy with hy | hy
        · rw [MiningAt.unique hy.1 eff.mining] at hy
          exact absurd (chk.inPool.symm.trans hy.2) e
        · rw [MiningAt.unique hy.1 eff.mining'] at hy
          exact absurd (chk.inPool.symm.trans (same.rewardPool.symm.trans hy.2)) e
      by_cases e3 : k = D.key
      · subst e3
        rcases eff.delegate with ⟨h1, -, -⟩ | ⟨-, -, -, x, x', rfl, rfl, h2⟩
        · exact absurd h1 e2
        · rcases hy with hy | hy
          · obtain ⟨rfl, -⟩ := h2 y hy.1
            exact absurd hy.2 (hx _ rfl)
          · have := (written x' rfl).2 y hy.1
            subst this
            exact absurd (sameDel.1.rewardPool.symm.trans hy.2) (hx x rfl)
      · exact eff.frame k e1 e2 e3
    · intro p hp
      refine eff.frame P (Ne.symm e) ?_ ?_
      · rintro rfl; exact PoolAt.not_mining hp eff.mining
      · rintro rfl
        rcases eff.delegate with ⟨h1, -, -⟩ | ⟨-, -, h1, -⟩
        · rw [h1] at hp; exact PoolAt.not_mining hp eff.mining
        · exact h1 p hp
  | @redelegate a nd Q M A O Old New rest q q' m m' od od' dn dn' accs_eq signed op chk newDel oldOk oldAt ne quiet same sfo
      ok' sameNew sameOld neP eff shell writtenOld writtenNew =>
    subst accs_eq
    have e : Q.key ≠ P ∧ ∀ x, ¬ Member env w P Old.key x := by
      rcases ho with h1 | ⟨h1, -⟩ | ⟨h1, -, h2⟩
      · cases h1
      · cases h1
      · exact ⟨by rintro rfl; exact h1 rfl, h2 Old.key rfl⟩
    obtain ⟨e, eo⟩ := e
    have hxn : ∀ x, dn = some x → x.rewardPool ≠ P := by
      intro x hx
      rcases (newDel x hx).pool hi with h1 | h1 <;> rw [h1]
      · exact e
      · exact Ne.symm hP0
    have hxo : ∀ x, od = some x → x.rewardPool ≠ P := by
      intro x hx hxp
      rcases oldAt x hx with ⟨h1, -⟩ | h1
      · exact eo x ⟨h1, hxp⟩
      · rw [h1.pool] at hxp; exact hP0 hxp.symm
    refine hframe ?_ ?_
    · intro k y hy
      by_cases e1 : k = Q.key
      · subst e1
        rcases hy with hy | hy
        · exact absurd hy.1 (PoolAt.not_mining eff.pool)
        · exact absurd hy.1 (PoolAt.not_mining eff.pool')
      by_cases e2 : k = M.key
      · subst e2
        rcases hy with hy | hy
        · rw [MiningAt.unique hy.1 eff.mining] at hy
          exact absurd (chk.inPool.symm.trans hy.2) e
        · rw [MiningAt.unique hy.1 eff.mining'] at hy
          exact absurd (chk.inPool.symm.trans (same.rewardPool.symm.trans hy.2)) e
      by_cases e3 : k = Old.key
      · subst e3
        rcases eff.old with ⟨h1, -, -⟩ | ⟨-, -, x, x', rfl, rfl, h2⟩
        · exact absurd h1 e2
        · rcases hy with hy | hy
          · exact absurd hy (eo y)
          · have := (writtenOld x' rfl).2 y hy.1
            subst this
            exact absurd (sameOld.1.rewardPool.symm.trans hy.2) (hxo x rfl)
      by_cases e4 : k = New.key
      · subst e4
        rcases eff.new with ⟨h1, -, -⟩ | ⟨-, -, x, x', rfl, rfl, h2⟩
        · exact absurd h1 e2
        · rcases hy with hy | hy
          · obtain ⟨rfl, -⟩ := h2 y hy.1
            exact absurd hy.2 (hxn _ rfl)
          · have := (writtenNew x' rfl).2 y hy.1
            subst this
            exact absurd (sameNew.1.rewardPool.symm.trans hy.2) (hxn x rfl)
      · exact eff.frame k e1 e2 e3 e4
    · intro p hp
      refine eff.frame P (Ne.symm e) ?_ ?_ ?_
      · rintro rfl; exact PoolAt.not_mining hp eff.mining
      · rintro rfl
        rcases eff.old with ⟨h3, -⟩ | ⟨-, h3, -⟩
        · rw [h3] at hp; exact PoolAt.not_mining hp eff.mining
        · exact h3 p hp
      · rintro rfl
        rcases eff.new with ⟨h3, -⟩ | ⟨-, h3, -⟩
        · rw [h3] at hp; exact PoolAt.not_mining hp eff.mining
        · exact h3 p hp
  | @decrease o n A Q M rest q m m' accs_eq chk pool op mining mining' same ok' sfo frame shell =>
    subst accs_eq
    have e : Q.key ≠ P := by
      rcases ho with h1 | ⟨h1, -⟩ | ⟨h1, -⟩
      · cases h1
      · cases h1
      · rintro rfl; exact h1 rfl
    refine hframe ?_ fun p hp => frame P (by rintro rfl; exact PoolAt.not_mining hp mining)
    intro k y hy
    by_cases e2 : k = M.key
    · subst e2
      rcases hy with hy | hy
      · rw [MiningAt.unique hy.1 mining] at hy
        exact absurd (chk.inPool.symm.trans hy.2) e
      · rw [MiningAt.unique hy.1 mining'] at hy
        exact absurd (chk.inPool.symm.trans (same.rewardPool.symm.trans hy.2)) e
    · exact frame k e2
  | @claim Q T K M O A U Kk rest q m m1 n accs_eq signedO signedA eff =>
    obtain ⟨t, ht, -⟩ := eff.userTok
    have hsame := (refresh_same eff.good.ok.history eff.miningOk eff.refreshed)
    have hwt := (refresh_weight eff.good.ok.history eff.miningOk eff.refreshed).1
    have howner : ∀ k, (w' k).owner = (w k).owner := by
      intro k
      by_cases e : k = M.key
      · subst e; exact eff.accOwner.1
      · by_cases hn : n = 0
        · rw [eff.zero hn k e]
        · obtain ⟨w1, h1, h2⟩ := eff.transfer (Nat.pos_of_ne_zero hn)
          rw [(h2.meta' k).1, h1 k e]
    have hfr : ∀ k, k ≠ M.key → (w k).owner = env.programId → w' k = w k := fun k hk hk2 =>
      eff.frame k hk (tok _ _ hk2 eff.vaultTok) (tok _ _ hk2 ht.1)
    refine ⟨?_, ?_, hpoolEq fun p hp => hfr P (by rintro rfl; exact PoolAt.not_mining hp eff.mining) hp.1, hstays⟩
    · intro k m' hm'
      refine Or.inl ?_
      by_cases e : k = M.key
      · subst e
        obtain rfl := MiningAt.unique hm'.1 eff.mining'
        exact ⟨m, ⟨eff.mining, hsame.1.rewardPool.symm.trans hm'.2⟩, hsame.2.2, fun x hx => hwt x (by rw [bod_eq_midnight]; exact hx)⟩
      · have := hfr k e ((howner k).symm.trans hm'.1.1)
        exact ⟨m', ⟨(miningAt_congr this).mp hm'.1, hm'.2⟩, rfl, fun _ _ => rfl⟩
    · intro k m0 hk
      refine Or.inl ?_
      by_cases e : k = M.key
      · subst e
        obtain rfl := MiningAt.unique hk.1 eff.mining
        exact ⟨_, eff.mining', hsame.1.rewardPool.trans hk.2⟩
      · exact ⟨m0, (miningAt_congr (hfr k e hk.1.1)).mpr hk.1, hk.2⟩
  | @distribute Q B rest q q' r accs_eq signed auth good pool pool' amount op same ok' frame shell =>
    have hm : ∀ k y, Member env w P k y ∨ Member env w' P k y → w' k = w k := by
      intro k y hy
      refine frame k ?_
      rintro rfl
      rcases hy with hy | hy
      · exact PoolAt.not_mining pool hy.1
      · exact PoolAt.not_mining pool' hy.1
    by_cases e : P = Q.key
    · refine ⟨?_, ?_, ?_, hstays⟩
      · intro k m' hm'
        have e := hm k m' (Or.inr hm')
        exact Or.inl ⟨m', ⟨(miningAt_congr e).mp hm'.1, hm'.2⟩, rfl, fun _ _ => rfl⟩
      · intro k m hk
        have e := hm k m (Or.inl hk)
        exact Or.inl ⟨m, (miningAt_congr e).mpr hk.1, hk.2⟩
      · intro p' hp'
        rw [e] at hp'
        obtain rfl := PoolAt.unique hp' pool'
        refine Or.inl ⟨q, by rw [e]; exact pool, fun x hx => ?_⟩
        by_cases hn : NewDay q now
        · obtain ⟨T, h1, -, -, -, rfl⟩ := distribute_new good.ok hn op
          exact totalOn_after (p := q) h1 hx
        · obtain ⟨T, h1, rfl⟩ := distribute_again good.ok hn op
          exact totalOn_after (p := q) h1 hx
    · exact hframe hm fun p hp => frame P e
  | @fill r e0 Q T K F S Kk rest q w1 accs_eq signed auth good pool vault nonzero future later endBound bound pool' w1_frame
      transfer frame neS neV shell =>
    obtain ⟨t, t', ht, ht', -⟩ := transfer.srcTok
    obtain ⟨u, u', hu, hu', -⟩ := transfer.dstTok
    have hS : (w S.key).owner = env.tokenProgram := by rw [← w1_frame _ neS]; exact ht.1
    have hK : (w K.key).owner = env.tokenProgram := by rw [← w1_frame _ neV]; exact hu.1
    have hm : ∀ k y, Member env w P k y ∨ Member env w' P k y → w' k = w k := by
      intro k y hy
      by_cases e1 : k = Q.key
      · subst e1
        rcases hy with hy | hy
        · exact absurd hy.1 (PoolAt.not_mining pool)
        · exact absurd hy.1 (PoolAt.not_mining pool')
      by_cases e2 : k = S.key
      · subst e2
        rcases hy with hy | hy
        · exact absurd (hy.1.1.symm.trans hS) env.program_ne_token
        · exact absurd (hy.1.1.symm.trans ht'.1) env.program_ne_token
      by_cases e3 : k = K.key
      · subst e3
        rcases hy with hy | hy
        · exact absurd (hy.1.1.symm.trans hK) env.program_ne_token
        · exact absurd (hy.1.1.symm.trans hu'.1) env.program_ne_token
      · exact frame k e1 e2 e3
    by_cases e : P = Q.key
    · refine ⟨?_, ?_, ?_, hstays⟩
      · intro k m' hm'
        have e := hm k m' (Or.inr hm')
        exact Or.inl ⟨m', ⟨(miningAt_congr e).mp hm'.1, hm'.2⟩, rfl, fun _ _ => rfl⟩
      · intro k m hk
        have e := hm k m (Or.inl hk)
        exact Or.inl ⟨m, (miningAt_congr e).mpr hk.1, hk.2⟩
      · intro p' hp'
        rw [e] at hp'
        obtain rfl := PoolAt.unique hp' pool'
        exact Or.inl ⟨q, by rw [e]; exact pool, fun x hx => rfl⟩
    · exact hframe hm fun p hp => frame P e (tok _ _ hp.1 hS) (tok _ _ hp.1 hK)
  | @close M O G A Q rest q m m1 accs_eq signedO signedA good pool auth mining init miningOk owner refreshed sfo paid target
      closed credited frame ne neG =>
    subst accs_eq
    have spent : ∀ y ∈ L, y.mining = M.key → y.amount = 0 := by
      rcases ho with h1 | ⟨-, h1⟩ | ⟨-, h1, -⟩
      · cases h1
      · intro y hy e; exact h1 y hy (by simp [e])
      · exact absurd rfl h1
    have hsame := (refresh_same good.ok.history miningOk refreshed)
    refine ⟨?_, ?_, hpoolEq fun p hp => frame P (by rintro rfl; exact PoolAt.not_mining hp mining) (sys _ _ hp.1 target), hstays⟩
    · intro k m' hm'
      refine Or.inl ⟨m', ?_, rfl, fun _ _ => rfl⟩
      by_cases e1 : k = M.key
      · subst e1
        have := hm'.1.2; rw [closed] at this; cases this
      by_cases e2 : k = G.key
      · subst e2
        have := hm'.1.1; rw [credited] at this
        exact absurd (this.symm.trans target) env.program_ne_system
      · exact ⟨(miningAt_congr (frame k e1 e2)).mp hm'.1, hm'.2⟩
    · intro k m0 hk
      by_cases e1 : k = M.key
      · subst e1
        refine Or.inr fun y hy hpos => ⟨fun e => ?_, fun e => ?_⟩
        · have := spent y hy e; omega
        · obtain rfl := MiningAt.unique hk.1 mining
          have h1 := hb.lent _ _ hk
          have h2 := lentTo_ge hy
          rw [e, ← h1] at h2
          have h3 : m0.stakeFromOthers = 0 := by rw [← hsame.2.2]; exact sfo
          rw [h3] at h2
          unfold StakeEntry.lent at h2
          by_cases e3 : y.delegate = y.mining
          · have := spent y hy (e3.symm.trans e); omega
          · rw [if_neg e3] at h2; omega
      · exact Or.inl ⟨m0, (miningAt_congr (frame k e1 (sys _ _ hk.1.1 target))).mpr hk.1, hk.2⟩
  | @initPool f d Q T K Y A R Kk S rest bump accs_eq signedY signedA owned len fresh notPda vault pool' vaultBefore vault'
      payer payer' frame neVP neYP neYV =>
    refine hframe ?_ ?_
    · intro k y hy
      by_cases e1 : k = Q.key
      · subst e1
        rcases hy with hy | hy
        · rcases fresh with h1 | ⟨m, h1, h2⟩
          · have := hy.1.2; rw [h1] at this; cases this
          · have h3 := hy.1.2; rw [h1] at h3; cases h3
            exact absurd (hy.2.symm.trans h2.pool) hP0
        · have := hy.1.2; rw [pool'] at this; cases this
      by_cases e2 : k = K.key
      · subst e2
        rcases hy with hy | hy
        · exact absurd (hy.1.1.symm.trans vaultBefore.2.2) env.program_ne_system
        · have := hy.1.2; rw [vault'] at this; cases this
      by_cases e3 : k = Y.key
      · subst e3
        rcases hy with hy | hy
        · exact absurd (hy.1.1.symm.trans payer.2.1) env.program_ne_system
        · have := hy.1.1; rw [payer'] at this
          exact absurd (this.symm.trans payer.2.1) env.program_ne_system
      · exact frame k e1 e2 e3
    · intro p hp
      refine frame P ?_ (sys _ _ hp.1 vaultBefore.2.2) (sys _ _ hp.1 payer.2.1)
      rintro rfl
      rcases fresh with h1 | ⟨m, h1, -⟩ <;> (rw [hp.2] at h1; cases h1)
  | @initMining o Q M Y S rest bump accs_eq signedY owned addr before mining' payer payer' frame ne neP =>
    have hfr : ∀ k, (w k).owner = env.programId → w' k = w k := fun k hk =>
      frame k (sys _ _ hk before.2.2) (sys _ _ hk payer.2.1)
    refine ⟨?_, fun k m hk => Or.inl ⟨m, (miningAt_congr (hfr k hk.1.1)).mpr hk.1, hk.2⟩,
      hpoolEq fun p hp => hfr P hp.1, hstays⟩
    intro k m' hm'
    by_cases e2 : k = M.key
    · subst e2
      have := hm'.1.2; rw [mining'] at this
      cases this
      exact Or.inr ⟨⟨rfl, rfl, rfl, rfl, rfl⟩, fun m0 hm0 => env.program_ne_system (hm0.1.1.symm.trans before.2.2)⟩
    by_cases e3 : k = Y.key
    · subst e3
      have := hm'.1.1; rw [payer'] at this
      exact absurd (this.symm.trans payer.2.1) env.program_ne_system
    · exact Or.inl ⟨m', ⟨(miningAt_congr (frame k e2 e3)).mp hm'.1, hm'.2⟩, rfl, fun _ _ => rfl⟩

/-! ## Stake operations -/

theorem Step.shell {now : Nat} {w w' : World} {accs : List AccountInfo} {i : Ix} {ret : Option Nat}
    (h : Step env now w w' accs i ret) (hi : isService i = false) (hc : i ≠ .closeMining) : ∀ k, Shell env (w k) (w' k) := by
  cases h with
  | stake _ _ _ _ _ _ _ _ _ _ shell => exact shell
  | redelegate _ _ _ _ _ _ _ _ _ _ _ _ _ _ _ _ shell => exact shell
  | decrease _ _ _ _ _ _ _ _ _ _ shell => exact shell
  | close => exact absurd rfl hc
  | _ => cases hi

theorem Spec.IsMiningOf.member {w : World} {M o P : Key} (h : IsMiningOf env w M o P) : ∃ m, Member env w P M m := by
  obtain ⟨m, p, h1, -, -, h2, -⟩ := h
  exact ⟨m, h1, h2⟩

theorem worth_less {y : StakeEntry} {n : Nat} (h : n ≤ y.amount) (x : Nat) :
    StakeEntry.worth { y with amount := y.amount - n } x = y.worth x - if x < y.expires then (n * y.times : Int) else n := by
  unfold StakeEntry.worth
  simp only
  have : ((y.amount - n : Nat) : Int) = y.amount - n := by omega
  rw [this]
  split
  · rw [Int.sub_mul]
  · rfl

theorem matured_less {y : StakeEntry} {now n x : Nat} (ha : y.expires % 86400 = 0) (hm : y.Matured now)
    (hx : midnight now ≤ x) : (if x < y.expires then (n * y.times : Int) else n) = n := by
  rcases hm with h | h
  · rw [h]; split <;> simp
  · rw [if_neg]
    unfold midnight at hx
    omega

theorem lent_less {y : StakeEntry} {n : Nat} (h : n ≤ y.amount) :
    StakeEntry.lent { y with amount := y.amount - n } = y.lent - if y.delegate = y.mining then 0 else (n : Int) := by
  unfold StakeEntry.lent
  simp only
  split <;> omega

theorem midnight_mod (t : Nat) : midnight t % 86400 = 0 := by unfold midnight; omega

theorem Spec.Reports.booked {now : Nat} {w w' : World} {accs : List AccountInfo} {i : Ix} {ret : Option Nat} {P : Key}
    {L L' : Ledger} (hi : env.PdaInjective) (hw : Wf env now w) (hs : RealSigners accs)
    (hclean : NotPoolAsMining env w accs i) (hP0 : P ≠ 0) (hb : Booked env now w P L)
    (hr : Reports env P now w accs i L L') (h : exec env now w accs i = .ok (w', ret)) : Booked env now w' P L' := by
  have hstep := step_of_exec hw hs hclean h
  -- entries that stay
  have stays : ∀ {y : StakeEntry} {rest : Ledger}, L.Perm (y :: rest) →
      (∀ z ∈ rest, z.expires % 86400 = 0) ∧ y.expires % 86400 = 0 ∧
      (∀ z ∈ rest, 0 < z.amount → (∃ m, Member env w P z.mining m) ∧ ∃ m, Member env w P z.delegate m) ∧
      (0 < y.amount → (∃ m, Member env w P y.mining m) ∧ ∃ m, Member env w P y.delegate m) := by
    intro y rest hp
    have hmem : ∀ z, z ∈ L ↔ z ∈ y :: rest := fun z => hp.mem_iff
    exact ⟨fun z hz => hb.aligned z ((hmem z).mpr (by simp [hz])), hb.aligned y ((hmem y).mpr (by simp)),
      fun z hz => hb.known z ((hmem z).mpr (by simp [hz])), hb.known y ((hmem y).mpr (by simp))⟩
  cases hr with
  | @deposit a l o d M D k n _ pool mining delegate member lockup room =>
    obtain ⟨Q, N, A, E, rest, k', n', rfl, h1, h2, h3⟩ := C17_deposit hw hs h
    cases pool; cases mining; cases delegate
    cases lockup.symm.trans h1
    refine hb.stakes hP0 (hstep.shell rfl (by nofun)) h3 h2 room.1 room.2 ?_ ?_ ?_ ?_ ?_
    · intro j x _
      rw [own_perm (.refl _)]
      simp only [StakeEntry.worth, stakeWeight]
      by_cases e : N.key = j
      · subst e; simp; omega
      · rw [if_neg e, if_neg (Ne.symm e)]; omega
    · intro j
      rw [lent_perm (.refl _)]
      simp only [StakeEntry.lent]
      by_cases e : E.key = j
      · subst e
        by_cases e2 : E.key = N.key
        · simp [e2]
        · simp [e2]; omega
      · rw [if_neg e, if_neg (fun hc => e hc.1.symm)]; omega
    · intro x _
      rw [all_perm (.refl _)]
      simp only [StakeEntry.worth, StakeEntry.lent, stakeWeight]
      omega
    · intro y hy hpos
      rcases List.mem_cons.mp hy with rfl | hy
      · exact ⟨h2.member, member⟩
      · exact hb.known y hy hpos
    · intro y hy
      rcases List.mem_cons.mp hy with rfl | hy
      · have := midnight_mod now
        simp only; omega
      · exact hb.aligned y hy
  | @withdraw a o d y rest _ pool mining delegate held matured enough =>
    obtain ⟨Q, N, A, E, tl, rfl, h2, h3, -⟩ := C20_withdraw hw hs h
    obtain ⟨s1, s2, s3, s4⟩ := stays held
    simp only [List.getElem?_cons_zero, List.getElem?_cons_succ, Option.map_some, Option.some.injEq] at pool mining delegate
    subst pool
    rw [mining, delegate] at h3
    refine hb.stakes hP0 (hstep.shell rfl (by nofun)) h3 (by rw [← mining]; exact h2) (fun _ _ => trivial) (fun _ _ => trivial) ?_ ?_ ?_ ?_ ?_
    · intro j x hx
      rw [own_perm (.refl _), own_perm held, worth_less enough, matured_less s2 matured hx]
      by_cases e : y.mining = j
      · subst e; simp; omega
      · rw [if_neg e, if_neg e, if_neg (Ne.symm e)]; omega
    · intro j
      rw [lent_perm (.refl _), lent_perm held, lent_less enough]
      by_cases e : y.delegate = j
      · subst e
        by_cases e2 : y.delegate = y.mining
        · simp [e2]
        · simp [e2]; omega
      · simp only [e, if_false]
        rw [if_neg (fun hc => e hc.1.symm)]; omega
    · intro x hx
      rw [all_perm (.refl _), all_perm held, worth_less enough, matured_less s2 matured hx, lent_less enough]
      omega
    · intro z hz hpos
      rcases List.mem_cons.mp hz with rfl | hz
      · exact s4 (by simp only at hpos; omega)
      · exact s3 z hz hpos
    · intro z hz
      rcases List.mem_cons.mp hz with rfl | hz
      · exact s2
      · exact s1 z hz
  | @extend ol nl ts a o d y k n k' n' rest _ pool mining delegate member held matured old times expires new room =>
    obtain ⟨Q, N, A, E, tl, k1, n1, k1', n1', rfl, t1, t2, h2, h3, -⟩ := C22_extend_partial hw hs h
    obtain ⟨s1, s2, s3, s4⟩ := stays held
    simp only [List.getElem?_cons_zero, List.getElem?_cons_succ, Option.map_some, Option.some.injEq] at pool mining delegate
    subst pool
    cases old.symm.trans t1
    cases new.symm.trans t2
    rw [mining, delegate] at h3
    rw [mining] at h2
    have hflex : ∀ {l : LockupPeriod} {k n : Nat}, terms l = some (k, n) → k = 1 → l = .flex := by
      intro l k n hl hk
      cases l <;> simp [terms] at hl <;> first | rfl | omega
    refine hb.stakes hP0 (hstep.shell rfl (by nofun)) h3 h2 room.1 room.2 ?_ ?_ ?_ ?_ ?_
    · intro j x hx
      rw [own_perm (.refl _), own_perm held]
      simp only [StakeEntry.worth, stakeWeight, times, expires]
      by_cases e : y.mining = j
      · subst e; simp only [if_true, Int.natCast_add]; omega
      · rw [if_neg e, if_neg e, if_neg (Ne.symm e)]; omega
    · intro j
      rw [lent_perm (.refl _), lent_perm held]
      simp only [StakeEntry.lent]
      by_cases e : y.delegate = j
      · subst e
        by_cases e2 : y.delegate = y.mining
        · simp [e2]
        · simp [e2]; omega
      · simp only [e, if_false]
        rw [if_neg (fun hc => e hc.1.symm)]; omega
    · intro x hx
      rw [all_perm (.refl _), all_perm held]
      have hif : (if ol ≠ .flex ∧ now < midnight ts + 86400 * n then (y.amount * k : Int)
          else stakeWeight y.amount k (midnight ts + 86400 * n) x) = stakeWeight y.amount k (midnight ts + 86400 * n) x := by
        rw [if_neg]
        rintro ⟨f1, f2⟩
        rcases matured with f3 | f3
        · exact f1 (hflex old (times.symm.trans f3))
        · rw [expires] at f3; omega
      rw [hif]
      simp only [StakeEntry.worth, StakeEntry.lent, stakeWeight, times, expires, Int.natCast_add]
      by_cases e2 : y.delegate = y.mining
      · simp only [e2, if_true]; omega
      · simp only [e2, if_false]; omega
    · intro z hz hpos
      rcases List.mem_cons.mp hz with rfl | hz
      · exact ⟨h2.member, member⟩
      · exact s3 z hz hpos
    · intro z hz
      rcases List.mem_cons.mp hz with rfl | hz
      · have := midnight_mod now
        simp only; omega
      · exact s1 z hz
  | @redelegate nd New y rest _ pool mining old new member held =>
    obtain ⟨Q, N, A, O, Od, Nw, tl, rfl, hne, -, h2, h3, h4, -⟩ := C23_change_delegate hw hs hclean h
    obtain ⟨s1, s2, s3, s4⟩ := stays held
    simp only [List.getElem?_cons_zero, List.getElem?_cons_succ, Option.map_some, Option.some.injEq] at pool mining old new
    subst pool; subst new
    rw [mining, old] at h3 h4
    rw [old] at hne
    rw [mining] at h2
    have hmem := h2.member
    obtain ⟨m0, p, -, hp, -⟩ := h2
    obtain ⟨p', g1, -, -, -, g2⟩ := h3 _ p hp
    refine hb.change hP0 (hstep.shell rfl (by nofun)) (own := fun _ _ => 0)
      (lent := fun k => - (if k = y.delegate ∧ k ≠ y.mining then (y.amount : Int) else 0) +
          (if k = Nw.key ∧ k ≠ y.mining then (y.amount : Int) else 0))
      (tot := fun _ => - (if y.delegate = y.mining then 0 else (y.amount : Int)) + (if Nw.key = y.mining then 0 else (y.amount : Int)))
      ⟨p, p', hp, g1, fun x _ => by rw [g2 rfl x]; omega⟩ ?_ ?_ ?_ ?_ ?_ ?_
    · intro k m hk
      obtain ⟨m', e1, e2, -, e3, e4⟩ := h4 k m hk
      exact ⟨m', e1, e2, by rw [e3]; omega, fun x hx => by rw [e4 x hx]; omega⟩
    · intro j x _
      rw [own_perm (.refl _), own_perm held]
      simp only [StakeEntry.worth]; omega
    · intro j
      rw [lent_perm (.refl _), lent_perm held]
      simp only [StakeEntry.lent]
      by_cases e1 : y.delegate = j <;> by_cases e2 : Nw.key = j <;> by_cases e3 : j = y.mining <;> grind
    · intro x _
      rw [all_perm (.refl _), all_perm held]
      simp only [StakeEntry.worth, StakeEntry.lent]; omega
    · intro z hz hpos
      rcases List.mem_cons.mp hz with rfl | hz
      · exact ⟨hmem, member⟩
      · exact s3 z hz hpos
    · intro z hz
      rcases List.mem_cons.mp hz with rfl | hz
      · exact s2
      · exact s1 z hz
  | @slash o n y rest _ pool mining held undelegated matured enough =>
    obtain ⟨A, Q, N, tl, rfl, h2, h3, -⟩ := C21_slash hw hs h
    obtain ⟨s1, s2, s3, s4⟩ := stays held
    simp only [List.getElem?_cons_zero, List.getElem?_cons_succ, Option.map_some, Option.some.injEq] at pool mining
    subst pool
    rw [mining] at h3 h2
    refine hb.stakes hP0 (hstep.shell rfl (by nofun)) h3 h2 (fun _ _ => trivial) (fun _ _ => trivial) ?_ ?_ ?_ ?_ ?_
    · intro j x hx
      rw [own_perm (.refl _), own_perm held, worth_less enough, matured_less s2 matured hx]
      simp only [slashWeight]
      by_cases e : y.mining = j
      · subst e; simp; omega
      · rw [if_neg e, if_neg e, if_neg (Ne.symm e)]; omega
    · intro j
      rw [lent_perm (.refl _), lent_perm held, lent_less enough]
      simp [undelegated]
    · intro x hx
      rw [all_perm (.refl _), all_perm held, worth_less enough, matured_less s2 matured hx, lent_less enough]
      simp [undelegated, slashWeight]; omega
    · intro z hz hpos
      rcases List.mem_cons.mp hz with rfl | hz
      · exact s4 (by simp only at hpos; omega)
      · exact s3 z hz hpos
    · intro z hz
      rcases List.mem_cons.mp hz with rfl | hz
      · exact s2
      · exact s1 z hz
  | @slashLocked o n ts y rest _ pool mining held undelegated expires enough =>
    obtain ⟨A, Q, N, tl, rfl, h2, h3, -⟩ := C21_slash hw hs h
    obtain ⟨s1, s2, s3, s4⟩ := stays held
    simp only [List.getElem?_cons_zero, List.getElem?_cons_succ, Option.map_some, Option.some.injEq] at pool mining
    subst pool
    rw [mining] at h3 h2
    have hwt : ∀ x, (if x < y.expires then (n * y.times : Int) else n) = slashWeight n (n * y.times) (some ts) x := by
      intro x
      simp only [slashWeight, expires]
      split <;> simp
    refine hb.stakes hP0 (hstep.shell rfl (by nofun)) h3 h2 (fun _ _ => trivial) (fun _ _ => trivial) ?_ ?_ ?_ ?_ ?_
    · intro j x hx
      rw [own_perm (.refl _), own_perm held, worth_less enough, hwt]
      by_cases e : y.mining = j
      · subst e; simp; omega
      · rw [if_neg e, if_neg e, if_neg (Ne.symm e)]; omega
    · intro j
      rw [lent_perm (.refl _), lent_perm held, lent_less enough]
      simp [undelegated]
    · intro x hx
      rw [all_perm (.refl _), all_perm held, worth_less enough, hwt, lent_less enough]
      simp [undelegated]; omega
    · intro z hz hpos
      rcases List.mem_cons.mp hz with rfl | hz
      · exact s4 (by simp only at hpos; omega)
      · exact s3 z hz hpos
    · intro z hz
      rcases List.mem_cons.mp hz with rfl | hz
      · exact s2
      · exact s1 z hz
  | close spent => exact hb.still (hstep.still hi hP0 hb (Or.inr (Or.inl ⟨rfl, spent⟩)))
  | service h0 => exact hb.still (hstep.still hi hP0 hb (Or.inl h0))
  | elsewhere h1 h2 h3 => exact hb.still (hstep.still hi hP0 hb (Or.inr (Or.inr ⟨h1, h2, h3⟩)))

/-! ## Histories -/

theorem Booked.tick {now : Nat} {w : World} {P : Key} {L : Ledger} (hb : Booked env now w P L) (d : Nat) :
    Booked env (now + d) w P L := by
  have hm : midnight now ≤ midnight (now + d) := by unfold midnight; omega
  exact ⟨fun k m hk x hx => hb.weight k m hk x (Nat.le_trans hm hx), hb.lent,
    fun p hp x hx => hb.total p hp x (Nat.le_trans hm hx), hb.known, hb.aligned, hb.unused⟩

theorem Booked.outside {now : Nat} {w w' : World} {P : Key} {L : Ledger} (hb : Booked env now w P L)
    (hpool : ∀ p, PoolAt env w' P p ↔ PoolAt env w P p) (hmem : ∀ k m, Member env w' P k m ↔ Member env w P k m) :
    Booked env now w' P L := by
  refine hb.still ⟨fun k m' h => Or.inl ⟨m', (hmem k m').mp h, rfl, fun _ _ => rfl⟩,
    fun k m h => Or.inl ⟨m, (hmem k m).mpr h⟩, fun p' h => Or.inl ⟨p', (hpool p').mp h, fun _ _ => rfl⟩,
    fun hn p h => hn p ((hpool p).mpr h)⟩

theorem Spec.LedgerEvent.clean {P : Key} {s : Chain} {L L' : Ledger} {e : Event} (h : LedgerEvent env P s L L' e) :
    CleanEvent env s e := by
  cases e with
  | ix accs i => exact h.1
  | _ => trivial

theorem apply_booked (hi : env.PdaInjective) {s : Chain} {P : Key} (hP0 : P ≠ 0) {e : Event} {L L' : Ledger}
    (hv : e.Valid env s) (hl : LedgerEvent env P s L L' e) (hw : Wf env s.now s.world)
    (hb : Booked env s.now s.world P L) : Booked env (s.apply env e).now (s.apply env e).world P L' := by
  cases e with
  | ix accs i =>
    obtain ⟨hc, ⟨⟨r, hx⟩, hr⟩ | ⟨⟨e, hx⟩, rfl⟩⟩ := hl
    · obtain ⟨w', ret⟩ := r
      rw [apply_ix_ok hx]
      exact hr.booked hi hw hv hc hP0 hb hx
    · rw [apply_ix_error hx]; exact hb
  | tick d => obtain rfl := hl; exact hb.tick d
  | gc j =>
    obtain ⟨rfl, h1, h2⟩ := hl
    have e0 : (s.apply env (.gc j)).world j = _ := world_set_same _ _ _
    have e1 : ∀ k, k ≠ j → (s.apply env (.gc j)).world k = s.world k := fun k hk => world_set_ne _ _ hk
    refine hb.outside (fun p => poolAt_congr (e1 P (Ne.symm h1))) fun k m => ⟨fun hm => ?_, fun hm => ?_⟩
    · by_cases hk : k = j
      · subst hk; have := hm.1.2; rw [e0] at this; cases this
      · exact ⟨(miningAt_congr (e1 k hk)).mp hm.1, hm.2⟩
    · by_cases hk : k = j
      · subst hk; exact absurd hm (h2 m)
      · exact ⟨(miningAt_congr (e1 k hk)).mpr hm.1, hm.2⟩
  | ext w' =>
    obtain rfl := hl
    refine hb.outside (fun p => ⟨fun hp => ?_, fun hp => ?_⟩) fun k m => ⟨fun hm => ?_, fun hm => ?_⟩
    · by_cases ho : (s.world P).owner = env.programId
      · obtain ⟨e1, -, e3, e4⟩ := hv.program_owned P ho
        exact ⟨ho, e3 ▸ hp.2⟩
      · have h1 := (hv.new_zero P ho hp.1).1
        have h5 : (w' P).content = _ := hp.2
        rw [h1] at h5; cases h5
    · obtain ⟨e1, -, e3, e4⟩ := hv.program_owned P hp.1
      exact ⟨e1.trans hp.1, e3.trans hp.2⟩
    · by_cases ho : (s.world k).owner = env.programId
      · obtain ⟨e1, -, e3, e4⟩ := hv.program_owned k ho
        exact ⟨⟨ho, e3 ▸ hm.1.2⟩, hm.2⟩
      · have h1 := (hv.new_zero k ho hm.1.1).1
        have h5 : (w' k).content = _ := hm.1.2
        rw [h1] at h5; cases h5
    · obtain ⟨e1, -, e3, e4⟩ := hv.program_owned k hm.1.1
      exact ⟨⟨e1.trans hm.1.1, e3.trans hm.1.2⟩, hm.2⟩

theorem Spec.LedgerRuns.clean {P : Key} {s s' : Chain} {L L' : Ledger} {es : List Event}
    (h : LedgerRuns env P s L es s' L') : RunsWith env (CleanEvent env) s es s' := by
  induction h with
  | nil => exact .nil _
  | cons hv hl _ ih => exact .cons hv hl.clean ih

/-- Throughout an honest history. -/
theorem ledger_booked (hi : env.PdaInjective) {P : Key} (hP0 : P ≠ 0) {s0 s : Chain} {es : List Event} {L : Ledger}
    (hg : Genesis env s0) (hr : LedgerRuns env P s0 [] es s L) : Booked env s.now s.world P L := by
  have key : ∀ {s0 s : Chain} {L0 L : Ledger} {es : List Event}, LedgerRuns env P s0 L0 es s L → Reachable env s0 →
      Booked env s0.now s0.world P L0 → Booked env s.now s.world P L := by
    intro s0 s L0 L es hr
    induction hr with
    | nil => intro _ h; exact h
    | cons hv hl _ ih =>
      intro h1 h2
      exact ih (h1.step hv hl.clean) (apply_booked hi hP0 hv hl (reachable_wf h1) h2)
  refine key hr ⟨s0, [], hg, .nil _⟩ ⟨?_, ?_, ?_, nofun, nofun, fun _ => rfl⟩
  · intro k m hm; have := (hg.owned k hm.1.1).1; rw [hm.1.2] at this; cases this
  · intro k m hm; have := (hg.owned k hm.1.1).1; rw [hm.1.2] at this; cases this
  · intro p hp; have := (hg.owned P hp.1).1; rw [hp.2] at this; cases this

/-- The pool's total is exactly the sum over all minings. -/
theorem Booked.earning {now : Nat} {w : World} {P : Key} {L : Ledger} (hb : Booked env now w P L) {p : Pool}
    (hp : PoolAt env w P p) {x : Nat} (hx : midnight now ≤ x) {ks : List Key} (hn : ks.Nodup)
    (hks : ∀ y ∈ L, 0 < y.amount → y.mining ∈ ks ∧ y.delegate ∈ ks) :
    (earningTotal env w P x ks : Int) = totalOn p x := by
  rw [hb.total p hp x hx, all_eq_sum hn hks]
  clear hn hks
  have one : ∀ k, (ofMember env w P (fun m => earningOn m x) k : Int) = L.own k x + L.lentTo k := by
    intro k
    rcases ofMember_cases (env := env) (w := w) (P := P) (k := k) (fun m => earningOn m x) with ⟨m, k1, k2⟩ | ⟨k1, k2⟩
    · rw [k2, ← hb.weight k m k1 x hx, ← hb.lent k m k1]
      have h1 := hb.weight k m k1 x hx
      have h2 := own_nonneg L k x
      unfold weightOn at *
      unfold earningOn
      omega
    · rw [k2]
      have h0 : ∀ y ∈ L, y.mining = k ∨ y.delegate = k → y.amount = 0 := by
        intro y hy he
        refine Nat.eq_zero_of_not_pos fun hpos => ?_
        obtain ⟨⟨m, h1⟩, m', h2⟩ := hb.known y hy hpos
        rcases he with rfl | rfl
        · exact k1 m h1
        · exact k1 m' h2
      rw [own_zero fun y hy e => h0 y hy (Or.inl e), lentTo_zero fun y hy e => h0 y hy (Or.inr e)]; rfl
  unfold earningTotal
  induction ks with
  | nil => rfl
  | cons k t ih =>
    rw [sumOver_cons]
    simp only [List.map_cons, List.sum_cons]
    rw [← ih, ← one k]; omega

end Verif
