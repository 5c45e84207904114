import Verif.Lemmas.Divide
/-!
Two histories that differ in how a delegated amount is divided among minings.
-/

namespace Verif

open Spec

variable {env : Env}

/-- A pool into which `a` has been deposited and delegated. -/
def Pool.plusTo (caps : Caps) (p : Pool) (a k e : Nat) : Pool :=
  { p with totalShare := p.totalShare + a * k + a, diffs := addAt caps.pool p.diffs e (a * k - a) }

theorem Pool.plusTo_plusTo (caps : Caps) (p : Pool) (a b : Nat) {k : Nat} (hk : 1 ≤ k) (e : Nat) :
    (p.plusTo caps a k e).plusTo caps b k e = p.plusTo caps (a + b) k e := by
  unfold Pool.plusTo
  simp only [addAt_twice]
  have h1 : a * 1 ≤ a * k := Nat.mul_le_mul_left _ hk
  have h2 : b * 1 ≤ b * k := Nat.mul_le_mul_left _ hk
  have h3 : a * k - a + (b * k - b) = (a + b) * k - (a + b) := by rw [Nat.add_mul]; omega
  have h4 : p.totalShare + a * k + a + b * k + b = p.totalShare + (a + b) * k + (a + b) := by rw [Nat.add_mul]; omega
  rw [h3, h4]

/-- A mining that is up to date and has got the delegated stake `a`. -/
def Mining.trusted (d : Mining) (b a : Nat) : Mining :=
  { d with share := d.share - dueBy d.diffs b, diffs := after d.diffs b, stakeFromOthers := d.stakeFromOthers + a }

theorem Mining.trusted_trusted (d : Mining) (b a a' : Nat) : (d.trusted b a).trusted b a' = d.trusted b (a + a') := by
  unfold Mining.trusted
  simp only [dueBy_after_self, after_after_self, Nat.sub_zero, Nat.add_assoc]

theorem refresh_trusted {cum : SMap} (hc : History cum) {now a : Nat} {d d' : Mining} (hd : MiningOk d)
    (hi : d.index = indexBefore cum now)
    (h : ({ d with stakeFromOthers := d.stakeFromOthers + a } : Mining).refreshRewards now cum = .ok d') :
    d' = d.trusted (midnight now) a := by
  have h1 := refresh_again hc (m := { d with stakeFromOthers := d.stakeFromOthers + a }) ⟨hd.1, hd.2⟩ hi h
  obtain ⟨c, rfl, -⟩ := refresh_ok hc (m := { d with stakeFromOthers := d.stakeFromOthers + a }) hd.sorted h
  obtain ⟨h1, h2⟩ := h1
  unfold Mining.trusted
  dsimp only at h1 h2 ⊢
  rw [h1, h2, bod_eq_midnight]

/-- What deposits of `A` in total, delegated to `D`, have done. -/
structure DividedTo (env : Env) (P D : Key) (ks : List Key) (k n : Nat) (s t : Chain) (p p' : Pool) (d' : Mining) (A : Nat) :
    Prop where
  now : t.now = s.now
  pool : PoolAt env t.world P p'
  delegate : MiningAt env t.world D d'
  shell : ∀ j, (t.world j).owner = (s.world j).owner ∧ (t.world j).lamports = (s.world j).lamports ∧
    (t.world j).len = (s.world j).len
  others : ∀ j, j ≠ P → j ≠ D → j ∉ ks → t.world j = s.world j
  minings : Shared env P ks k n s t p A

/-- One deposit. -/
theorem dividedTo_one {P D : Key} {l : LockupPeriod} {ks : List Key} {k n : Nat} {s : Chain} {e : Event} {p : Pool} {d : Mining}
    (hw : Wf env s.now s.world) (hks : ks.Nodup) (ht : terms l = some (k, n)) (hp : PoolAt env s.world P p)
    (hd : MiningAt env s.world D d) (hi : d.index = indexBefore p.cumulative s.now)
    (hv : e.Valid env s) (hc : DepositTo env P l D ks s e) :
    DividedTo env P D ks k n s (s.apply env e) p (p.plusTo env.caps (amountOf e) k (midnight s.now + 86400 * n))
      (d.trusted (midnight s.now) (amountOf e)) (amountOf e) ∧ CleanEvent env s e := by
  cases e with
  | ix accs i =>
    cases i with
    | depositMining a l' o dl =>
      obtain ⟨rfl, h1, h2, h4, hDk, M, hM, h3, h5⟩ := hc
      refine ⟨?_, trivial⟩
      unfold succeeded at h1
      split at h1
      · rename_i r hx
        obtain ⟨w', ret⟩ := r
        rw [apply_ix_ok hx]
        have step := step_of_exec hw hv (by exact trivial) hx
        obtain ⟨P1, M1, A1, D1, rest, k1, n1, e1, t1, -, c1⟩ := C17_deposit hw hv hx
        rw [ht] at t1; cases t1
        subst e1
        obtain rfl : P1.key = P := Option.some.inj h2
        obtain rfl : M1.key = M := Option.some.inj h3
        obtain rfl : D1.key = D := Option.some.inj h4
        have hD : D1.key ≠ M1.key := fun h => hDk (h ▸ hM)
        cases step with
        | @stake i P' M' A' D' p0 p' m0 m' d0 d' accs_eq op chk del quiet same sfo ok' sameDel eff shell =>
          obtain ⟨rest', e⟩ := accs_eq
          cases e
          obtain rfl := PoolAt.unique hp eff.pool
          obtain ⟨m1, f1, f2, -, f3, f4, -⟩ := c1.minings _ _ eff.mining
          obtain rfl := MiningAt.unique f1 eff.mining'
          have hcr := (deposit_credit chk.good.ok chk.miningOk op).1
          obtain ⟨m1', e, g1, g2, -, -, -, -, -, -, g3, g4⟩ := deposit_ok (refresh_sorted chk.good.ok chk.miningOk) op
          obtain ⟨rfl, d1, rfl, hd1⟩ := eff.delegateAt hD hd
          rw [withDelegate_some] at g4
          obtain ⟨d2, g4, g5⟩ := g4
          cases g5
          rw [delegateAdd_ok] at g4
          obtain ⟨-, -, g4, g5⟩ := g4
          have hh := chk.good.ok.history
          have hdd := refresh_trusted hh (miningAt_ok hw hd).1 hi g4
          obtain ⟨k1, -, -⟩ := terms_facts ht
          obtain ⟨k', n', y1, y2, y3, y4, y5, y6⟩ := terms_end.mp g2
          rw [ht] at y1; cases y1
          refine ⟨rfl, ?_, ?_, fun j => ⟨(shell j).1, (shell j).2.1, (shell j).2.2.1⟩, ?_, ?_⟩
          · have := eff.pool'
            rw [g5, y6, k1] at this
            exact this
          · rw [hdd] at hd1
            exact hd1
          · intro j j1 j0 j2
            have j3 : j ≠ M1.key := fun h => j2 (h ▸ hM)
            exact c1.others j j1 j3 j0
          · refine ⟨fun j x => if j = M1.key then weightNat a k (midnight s.now + 86400 * n) x else 0, ?_, ?_⟩
            · intro j hj m hm
              by_cases hjm : j = M1.key
              · subst hjm
                obtain rfl := MiningAt.unique hm.1 eff.mining
                refine ⟨_, ⟨f1, f2.2.1.trans hm.2⟩, Or.inr ⟨hcr, sfo, fun x hx => ?_⟩⟩
                rw [f4 rfl (h5 _ k n hm.1 ht) x hx, weightNat_eq]
                simp
              · have hjP : j ≠ P1.key := by
                  rintro rfl
                  exact PoolAt.not_mining hp hm.1
                have ej := c1.others j hjP hjm (fun h => hDk (h ▸ hj))
                exact ⟨m, ⟨(miningAt_congr ej).mpr hm.1, hm.2⟩, Or.inl ⟨rfl, fun x _ => by simp [hjm]⟩⟩
            · intro x
              have := sumOver_one (f := fun j => if j = M1.key then weightNat a k (midnight s.now + 86400 * n) x else 0)
                (g := fun _ => 0) hks hM (fun j hj => by simp [hj])
              rw [sumOver_zero] at this
              simpa [amountOf] using this
      · cases h1
    | _ => exact hc.elim
  | _ => exact hc.elim

theorem Shared.trans {P : Key} {ks : List Key} {k n : Nat} {s t u : Chain} {p p' : Pool} {A B : Nat}
    (hw : Wf env s.now s.world) (hw' : Wf env t.now t.world) (hp : PoolAt env s.world P p)
    (hb : p'.cumulative = p.cumulative) (hn : t.now = s.now) (h1 : Shared env P ks k n s t p A)
    (h2 : Shared env P ks k n t u p' B) : Shared env P ks k n s u p (A + B) := by
  have hc := (poolAt_good hw hp).ok.history
  obtain ⟨W, a1, a2⟩ := h1
  obtain ⟨V, b1, b2⟩ := h2
  refine ⟨fun j x => W j x + V j x, ?_, ?_⟩
  · intro j hj m hm
    obtain ⟨m1, c1, c2⟩ := a1 j hj m hm
    obtain ⟨m2, d1, d2⟩ := b1 j hj m1 c1
    rw [hn, hb] at d2
    exact ⟨m2, d1, c2.trans hc (miningAt_ok hw hm.1).1 (miningAt_ok hw' c1.1).1 d2⟩
  · intro x
    rw [sumOver_plus, a2, b2, hn, weightNat_add]

/-- All deposits. -/
theorem dividedTo {P D : Key} {l : LockupPeriod} {ks : List Key} {k n : Nat} {s t : Chain} {x : List Event}
    (hks : ks.Nodup) (ht : terms l = some (k, n)) (hr : RunsWith env (DepositTo env P l D ks) s x t) :
    ∀ {p : Pool} {d : Mining}, Wf env s.now s.world → PoolAt env s.world P p → MiningAt env s.world D d →
    d.index = indexBefore p.cumulative s.now → x ≠ [] →
    DividedTo env P D ks k n s t p (p.plusTo env.caps (x.map amountOf).sum k (midnight s.now + 86400 * n))
      (d.trusted (midnight s.now) (x.map amountOf).sum) (x.map amountOf).sum ∧ RunsWith env (CleanEvent env) s x t := by
  induction hr with
  | nil s => intro p d _ _ _ _ h; exact absurd rfl h
  | @cons s t e es hv hd hr ih =>
    intro p d hw hp hm hi _
    obtain ⟨h1, hc⟩ := dividedTo_one hw hks ht hp hm hi hv hd
    have hw' := wf_apply hw hv hc
    cases es with
    | nil =>
      cases hr
      exact ⟨by simpa using h1, .cons hv hc (.nil _)⟩
    | cons e' es =>
      obtain ⟨h2, h3⟩ := ih hw' h1.pool h1.delegate (by rw [h1.now]; exact hi) (by simp)
      refine ⟨?_, .cons hv hc h3⟩
      rw [h1.now, Pool.plusTo_plusTo _ _ _ _ (terms_facts ht).2.1, Mining.trusted_trusted] at h2
      simp only [List.map_cons, List.sum_cons] at h2 ⊢
      refine ⟨h2.now.trans h1.now, h2.pool, h2.delegate, fun j => ?_,
        fun j a b c => (h2.others j a b c).trans (h1.others j a b c), h1.minings.trans hw hw' hp (by rfl) h1.now h2.minings⟩
      obtain ⟨a1, a2, a3⟩ := h1.shell j
      obtain ⟨b1, b2, b3⟩ := h2.shell j
      exact ⟨b1.trans a1, b2.trans a2, b3.trans a3⟩

end Verif
