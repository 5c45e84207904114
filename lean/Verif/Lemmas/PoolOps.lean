import Verif.Lemmas.Refresh
/-!
What the successful methods of the pool did.
-/

namespace Verif

open Spec

theorem poolConsumeLoop_ok {b : Nat} {D : List (Nat × Nat)} (hD : Sorted D) {sh : Nat} {pr : List Nat} {r : Nat × List Nat} :
    Pool.consumeLoop b D sh pr = .ok r ↔ dueBy D b ≤ sh ∧ r = (sh - dueBy D b, pr ++ dueDates D b) := by
  induction D generalizing sh pr with
  | nil => simp [Pool.consumeLoop, dueDates, eq_comm]
  | cons a rest ih =>
    obtain ⟨e, v⟩ := a
    rw [Pool.consumeLoop]
    by_cases he : e > b
    · rw [if_pos he]
      have hall : ∀ x ∈ (e, v) :: rest, b < x.1 := by
        intro x hx
        rcases List.mem_cons.mp hx with hx | hx
        · subst hx; exact he
        · have := (sorted_cons.mp hD).1 x hx; simp at this; omega
      have hdue := dueBy_eq_zero hall
      have hdates : dueDates ((e, v) :: rest) b = [] := by
        unfold dueDates; rw [filter_le_nil hD he]; rfl
      rw [hdue, hdates]
      simp [eq_comm]
    · rw [if_neg he]
      have heb : e ≤ b := by omega
      simp only [res_bind_ok, safeSub_ok]
      rw [dueBy_cons, if_pos heb, dueDates_cons_le heb]
      constructor
      · rintro ⟨x, ⟨hv, rfl⟩, h⟩
        obtain ⟨h1, rfl⟩ := (ih (sorted_cons.mp hD).2).mp h
        refine ⟨by simp only; omega, ?_⟩
        simp [Nat.sub_sub]
      · rintro ⟨h1, rfl⟩
        simp only at h1
        refine ⟨sh - v, ⟨by omega, rfl⟩, (ih (sorted_cons.mp hD).2).mpr ⟨by omega, ?_⟩⟩
        simp [Nat.sub_sub]

theorem poolConsume_ok {p p' : Pool} (hD : Sorted p.diffs) {b : Nat} :
    p.consumeOldModifiers b = .ok p' ↔ dueBy p.diffs b ≤ p.totalShare ∧
      p' = { p with totalShare := p.totalShare - dueBy p.diffs b, diffs := after p.diffs b } := by
  unfold Pool.consumeOldModifiers
  simp only [res_bind_ok, Prod.exists, res_pure_ok, poolConsumeLoop_ok hD, Prod.mk.injEq]
  constructor
  · rintro ⟨a, l, ⟨h, rfl, rfl⟩, rfl⟩
    refine ⟨h, ?_⟩
    rw [List.nil_append, foldl_erase hD]
  · rintro ⟨h, rfl⟩
    refine ⟨_, _, ⟨h, rfl, rfl⟩, ?_⟩
    rw [List.nil_append, foldl_erase hD]

theorem modifyDiffs_ok {D D' : SMap} (hD : Sorted D) {ts x : Nat} :
    Pool.modifyDiffs D ts x = .ok D' ↔ ∃ old, D.get ts = some old ∧ x ≤ old ∧ D' = D.put ts (old - x) := by
  unfold Pool.modifyDiffs
  cases h : D.get ts with
  | none => simp
  | some old =>
    simp only [res_bind_ok, safeSub_ok, res_pure_ok, Option.some.injEq]
    constructor
    · rintro ⟨v, ⟨h1, rfl⟩, rfl⟩
      exact ⟨old, rfl, h1, SMap.set_eq_put hD h⟩
    · rintro ⟨o, rfl, h1, rfl⟩
      exact ⟨_, ⟨h1, rfl⟩, SMap.set_eq_put hD h⟩

theorem withDelegate_none {p p' : Pool} {f : Pool → Mining → Res (Pool × Mining)} {d' : Option Mining} :
    p.withDelegate none f = .ok (p', d') ↔ p' = p ∧ d' = none := by
  simp [Pool.withDelegate, eq_comm]

theorem withDelegate_some {p p' : Pool} {m : Mining} {f : Pool → Mining → Res (Pool × Mining)} {d' : Option Mining} :
    p.withDelegate (some m) f = .ok (p', d') ↔ ∃ m', f p m = .ok (p', m') ∧ d' = some m' := by
  simp only [Pool.withDelegate, res_bind_ok, Prod.exists, res_pure_ok, Prod.mk.injEq]
  constructor
  · rintro ⟨a, b, h, rfl, rfl⟩; exact ⟨b, h, rfl⟩
  · rintro ⟨b, h, rfl⟩; exact ⟨_, _, h, rfl, rfl⟩

theorem delegateSub_ok {now amount : Nat} {p p' : Pool} {d d' : Mining} :
    Pool.delegateSub now amount p d = .ok (p', d') ↔
      amount ≤ d.stakeFromOthers ∧ amount ≤ p.totalShare ∧
      ({ d with stakeFromOthers := d.stakeFromOthers - amount } : Mining).refreshRewards now p.cumulative = .ok d' ∧
      p' = { p with totalShare := p.totalShare - amount } := by
  unfold Pool.delegateSub
  simp only [res_bind_ok, safeSub_ok, res_pure_ok, Prod.mk.injEq]
  constructor
  · rintro ⟨_, ⟨h1, rfl⟩, _, ⟨h2, rfl⟩, x, h3, rfl, rfl⟩; exact ⟨h1, h2, h3, rfl⟩
  · rintro ⟨h1, h2, h3, rfl⟩; exact ⟨_, ⟨h1, rfl⟩, _, ⟨h2, rfl⟩, _, h3, rfl, rfl⟩

theorem delegateAdd_ok {now amount : Nat} {p p' : Pool} {d d' : Mining} :
    Pool.delegateAdd now amount p d = .ok (p', d') ↔
      d.stakeFromOthers + amount < U64 ∧ p.totalShare + amount < U64 ∧
      ({ d with stakeFromOthers := d.stakeFromOthers + amount } : Mining).refreshRewards now p.cumulative = .ok d' ∧
      p' = { p with totalShare := p.totalShare + amount } := by
  unfold Pool.delegateAdd
  simp only [res_bind_ok, safeAdd64_ok, res_pure_ok, Prod.mk.injEq]
  constructor
  · rintro ⟨_, ⟨h1, rfl⟩, _, ⟨h2, rfl⟩, x, h3, rfl, rfl⟩; exact ⟨h1, h2, h3, rfl⟩
  · rintro ⟨h1, h2, h3, rfl⟩; exact ⟨_, ⟨h1, rfl⟩, _, ⟨h2, rfl⟩, _, h3, rfl, rfl⟩

/-- Adding `v` to the entry at `k`, subject to the capacity. -/
def addAt (cap : Nat) (D : SMap) (k v : Nat) : SMap := D.insert cap k ((D.get k).getD 0 + v)

theorem insert_sorted {D : SMap} (h : Sorted D) (cap k v : Nat) : Sorted (D.insert cap k v) := by
  unfold SMap.insert
  split
  · exact SMap.put_sorted h k v
  · exact h

theorem addAt_sorted {D : SMap} (h : Sorted D) (cap k v : Nat) : Sorted (addAt cap D k v) := insert_sorted h ..

/-- There is room for an entry at `k`. -/
def Room (cap : Nat) (D : SMap) (k : Nat) : Prop := D.contains k = true ∨ D.length < cap

theorem dueBy_addAt {D : SMap} (h : Sorted D) {cap k : Nat} (hr : Room cap D k) (v d : Nat) :
    dueBy (addAt cap D k v) d = dueBy D d + if k ≤ d then v else 0 := by
  unfold Room at hr
  unfold addAt SMap.insert
  rw [if_pos hr]
  have := SMap.dueBy_put h k ((D.get k).getD 0 + v) d
  split at this <;> simp_all <;> omega

theorem total_addAt {D : SMap} (h : Sorted D) {cap k : Nat} (hr : Room cap D k) (v : Nat) :
    total (addAt cap D k v) = total D + v := by
  unfold Room at hr
  unfold addAt SMap.insert
  rw [if_pos hr]
  have := SMap.total_put h k ((D.get k).getD 0 + v)
  omega

theorem dueBy_addAt_le {D : SMap} (h : Sorted D) (cap k v d : Nat) :
    dueBy (addAt cap D k v) d ≤ dueBy D d + if k ≤ d then v else 0 := by
  by_cases hr : Room cap D k
  · exact Nat.le_of_eq (dueBy_addAt h hr v d)
  · unfold Room at hr
    unfold addAt SMap.insert
    rw [if_neg hr]
    omega

theorem total_addAt_le {D : SMap} (h : Sorted D) (cap k v : Nat) : total (addAt cap D k v) ≤ total D + v := by
  by_cases hr : Room cap D k
  · exact Nat.le_of_eq (total_addAt h hr v)
  · unfold Room at hr
    unfold addAt SMap.insert
    rw [if_neg hr]
    omega

theorem deposit_ok {caps : Caps} {now : Nat} {p p' : Pool} {m m' : Mining} {amount : Nat} {period : LockupPeriod}
    {d d' : Option Mining} (hm : ∀ m1, m.refreshRewards now p.cumulative = .ok m1 → Sorted m1.diffs)
    (h : p.deposit caps now m amount period d = .ok (p', m', d')) :
    ∃ m1 e, m.refreshRewards now p.cumulative = .ok m1 ∧ period.endTimestamp now = .ok e ∧
      period ≠ .none ∧ amount * period.multiplier < U64 ∧ p.totalShare + amount * period.multiplier < U64 ∧
      m1.share + amount * period.multiplier < U64 ∧
      (p.diffs.get e).getD 0 + (amount * period.multiplier - amount) < U64 ∧
      (m1.diffs.get e).getD 0 + (amount * period.multiplier - amount) < U64 ∧
      m' = { m1 with share := m1.share + amount * period.multiplier,
                     diffs := addAt caps.mining m1.diffs e (amount * period.multiplier - amount) } ∧
      Pool.withDelegate { p with
          totalShare := p.totalShare + amount * period.multiplier,
          diffs := addAt caps.pool p.diffs e (amount * period.multiplier - amount) } d
        (Pool.delegateAdd now amount) = .ok (p', d') := by
  unfold Pool.deposit at h
  simp only [res_bind_ok, safeMul64_ok, safeSub_ok, safeAdd64_ok] at h
  obtain ⟨m1, h1, ws, ⟨h2, rfl⟩, fs, ⟨h3, rfl⟩, df, ⟨h4, rfl⟩, tot, ⟨h5, rfl⟩, sh, ⟨h6, rfl⟩, e, h7, md,
    ⟨h8, rfl⟩, h⟩ := h
  have hf : amount * LockupPeriod.flex.multiplier = amount := by simp [LockupPeriod.multiplier]
  rw [hf] at h4 h8 h
  have hs := hm m1 h1
  have hne : period ≠ .none := by
    rintro rfl
    simp [LockupPeriod.endTimestamp] at h7
  refine ⟨m1, e, h1, h7, hne, h2, h5, h6, h8, ?_⟩
  cases hg : m1.diffs.get e with
  | some old =>
    rw [hg] at h
    simp only [res_bind_ok, safeAdd64_ok, res_pure_ok, Prod.exists, Prod.mk.injEq] at h
    obtain ⟨v, ⟨h9, rfl⟩, D, rfl, a, b, h10, rfl, rfl, rfl⟩ := h
    refine ⟨by simpa using h9, ?_, h10⟩
    congr 1
    unfold addAt SMap.insert
    have hc : m1.diffs.contains e = true := by simp [SMap.contains, hg]
    rw [if_pos (Or.inl hc), SMap.set_eq_put hs hg, hg]
    rfl
  | none =>
    rw [hg] at h
    simp only [res_bind_ok, res_pure_ok, Prod.exists, Prod.mk.injEq] at h
    obtain ⟨D, rfl, a, b, h10, rfl, rfl, rfl⟩ := h
    refine ⟨by simp; omega, ?_, h10⟩
    congr 1
    unfold addAt
    rw [hg]
    simp

theorem withdraw_ok {now : Nat} {p p' : Pool} {m m' : Mining} {amount : Nat} {d d' : Option Mining}
    (hp : Sorted p.diffs) (h : p.withdraw now m amount d = .ok (p', m', d')) :
    ∃ m1, m.refreshRewards now p.cumulative = .ok m1 ∧ amount ≤ m1.share ∧
      amount + dueBy p.diffs (bod now) ≤ p.totalShare ∧
      m' = { m1 with share := m1.share - amount } ∧
      Pool.withDelegate { p with
          totalShare := p.totalShare - amount - dueBy p.diffs (bod now),
          diffs := after p.diffs (bod now) } d (Pool.delegateSub now amount) = .ok (p', d') := by
  unfold Pool.withdraw at h
  simp only [res_bind_ok, Prod.exists, safeSub_ok, res_pure_ok, Prod.mk.injEq] at h
  obtain ⟨m1, h1, t, ⟨h2, rfl⟩, s, ⟨h3, rfl⟩, p1, h4, a, b, h5, rfl, rfl, rfl⟩ := h
  rw [poolConsume_ok (by exact hp)] at h4
  obtain ⟨h6, rfl⟩ := h4
  simp only at h6
  exact ⟨m1, h1, h3, by omega, rfl, h5⟩

theorem slash_ok {now : Nat} {p p' : Pool} {m m' : Mining} {native mult : Nat} {exp : Option Nat}
    (hp : Sorted p.diffs) (hm : ∀ m1, m.refreshRewards now p.cumulative = .ok m1 → Sorted m1.diffs)
    (h : p.slash now m native mult exp = .ok (p', m')) :
    ∃ m1, m.refreshRewards now p.cumulative = .ok m1 ∧ mult ≤ m1.share ∧
      mult + dueBy p.diffs (bod now) ≤ p.totalShare ∧
      ((exp = none ∧ m' = { m1 with share := m1.share - mult } ∧
        p' = { p with totalShare := p.totalShare - mult - dueBy p.diffs (bod now),
                      diffs := after p.diffs (bod now) }) ∨
       (∃ ts om op, exp = some ts ∧ native ≤ mult ∧ m1.diffs.get (bod ts) = some om ∧
         SMap.get (after p.diffs (bod now)) (bod ts) = some op ∧ mult - native ≤ om ∧ mult - native ≤ op ∧
         m' = { m1 with share := m1.share - mult, diffs := m1.diffs.put (bod ts) (om - (mult - native)) } ∧
         p' = { p with totalShare := p.totalShare - mult - dueBy p.diffs (bod now),
                       diffs := SMap.put (after p.diffs (bod now)) (bod ts) (op - (mult - native)) })) := by
  unfold Pool.slash at h
  simp only [res_bind_ok, Prod.exists] at h
  obtain ⟨p1, m1', d1, hw, h⟩ := h
  obtain ⟨m1, h1, h2, h3, rfl, h5⟩ := withdraw_ok hp hw
  rw [withDelegate_none] at h5
  obtain ⟨rfl, rfl⟩ := h5
  refine ⟨m1, h1, h2, h3, ?_⟩
  cases exp with
  | none =>
    simp only [res_pure_ok, Prod.mk.injEq] at h
    exact Or.inl ⟨rfl, h.2.symm, h.1.symm⟩
  | some ts =>
    right
    simp only [res_bind_ok, safeSub_ok, modifyDiffs_ok (hm m1 h1), modifyDiffs_ok (after_sorted hp _), res_pure_ok,
      Prod.mk.injEq] at h
    obtain ⟨df, ⟨h6, rfl⟩, D1, ⟨om, h7, h8, rfl⟩, D2, ⟨op, h9, h10, rfl⟩, rfl, rfl⟩ := h
    exact ⟨ts, om, op, rfl, h6, h7, h9, h8, h10, rfl, rfl⟩

theorem extend_ok {caps : Caps} {now : Nat} {p p' : Pool} {m m' : Mining} {op np : LockupPeriod}
    {start base add : Nat} {d d' : Option Mining}
    (hm : ∀ m1, m.refreshRewards now p.cumulative = .ok m1 → Sorted m1.diffs)
    (h : p.extend caps now m op np start base add d = .ok (p', m', d')) :
    ∃ m1 oe p2 m2 p3 d3, m.refreshRewards now p.cumulative = .ok m1 ∧
      (op = .flex ∧ oe = 0 ∨ op ≠ .flex ∧ op.endTimestamp start = .ok oe) ∧
      (now < oe ∧ base * op.multiplier < U64 ∧ base ≤ base * op.multiplier ∧
          (∃ old, m1.diffs.get oe = some old ∧ base * op.multiplier - base ≤ old ∧
            m2 = { m1 with diffs := m1.diffs.put oe (old - (base * op.multiplier - base)),
                           share := m1.share - base * op.multiplier }) ∧
          base * op.multiplier ≤ m1.share ∧ base * op.multiplier ≤ p.totalShare ∧
          p2 = { p with totalShare := p.totalShare - base * op.multiplier } ∨
       ¬ now < oe ∧ base ≤ m1.share ∧ base ≤ p.totalShare ∧
          m2 = { m1 with share := m1.share - base } ∧ p2 = { p with totalShare := p.totalShare - base }) ∧
      base + add < U64 ∧
      Pool.withDelegate p2 d (Pool.delegateSub now base) = .ok (p3, d3) ∧
      p3.deposit caps now m2 (base + add) np d3 = .ok (p', m', d') := by
  unfold Pool.extend at h
  have hf : base * LockupPeriod.flex.multiplier = base := by simp [LockupPeriod.multiplier]
  rw [res_bind_ok] at h
  obtain ⟨m1, h1, h⟩ := h
  have hs := hm m1 h1
  have key : ∃ oe, (op = .flex ∧ oe = 0 ∨ op ≠ .flex ∧ op.endTimestamp start = .ok oe) ∧
      (do
        let flexStake ← safeMul64 base LockupPeriod.flex.multiplier
        let (p, m) ←
          if now < oe then do
            let weighted ← safeMul64 base op.multiplier
            let diff ← safeSub weighted flexStake
            let mdiffs ← Pool.modifyDiffs m1.diffs oe diff
            let share ← safeSub m1.share weighted
            let total ← safeSub p.totalShare weighted
            pure (({ p with totalShare := total } : Pool), ({ m1 with diffs := mdiffs, share := share } : Mining))
          else do
            let share ← safeSub m1.share flexStake
            let total ← safeSub p.totalShare flexStake
            pure (({ p with totalShare := total } : Pool), ({ m1 with share := share } : Mining))
        let amountToRestake ← safeAdd64 base add
        let (p, d) ← p.withDelegate d (Pool.delegateSub now base)
        p.deposit caps now m amountToRestake np d) = .ok (p', m', d') := by
    split at h
    · rename_i hfx
      rw [res_bind_ok] at h
      obtain ⟨oe, h2, h⟩ := h
      rw [res_pure_ok] at h2
      exact ⟨oe, Or.inl ⟨hfx, h2.symm⟩, h⟩
    · rename_i hfx
      rw [res_bind_ok] at h
      obtain ⟨oe, h2, h⟩ := h
      exact ⟨oe, Or.inr ⟨hfx, h2⟩, h⟩
  clear h
  obtain ⟨oe, ho, h⟩ := key
  rw [res_bind_ok] at h
  obtain ⟨fs, h2, h⟩ := h
  rw [safeMul64_ok, hf] at h2
  obtain ⟨_, rfl⟩ := h2
  by_cases hlt : now < oe
  · rw [if_pos hlt] at h
    simp only [res_bind_ok, safeMul64_ok, safeSub_ok, modifyDiffs_ok hs, safeAdd64_ok, res_pure_ok, Prod.exists] at h
    obtain ⟨ws, ⟨h3, rfl⟩, df, ⟨h4, rfl⟩, D, ⟨old, h5, h6, rfl⟩, sh, ⟨h7, rfl⟩, tt, ⟨h8, rfl⟩, p2, m2, h9, ar,
      ⟨h10, rfl⟩, p3, d3, h11, h12⟩ := h
    simp only [Prod.mk.injEq] at h9
    obtain ⟨rfl, rfl⟩ := h9
    exact ⟨m1, oe, _, _, p3, d3, h1, ho, Or.inl ⟨hlt, h3, h4, ⟨old, h5, h6, rfl⟩, h7, h8, rfl⟩, h10, h11, h12⟩
  · rw [if_neg hlt] at h
    simp only [res_bind_ok, safeSub_ok, safeAdd64_ok, res_pure_ok, Prod.exists] at h
    obtain ⟨sh, ⟨h7, rfl⟩, tt, ⟨h8, rfl⟩, p2, m2, h9, ar, ⟨h10, rfl⟩, p3, d3, h11, h12⟩ := h
    simp only [Prod.mk.injEq] at h9
    obtain ⟨rfl, rfl⟩ := h9
    exact ⟨m1, oe, _, _, p3, d3, h1, ho, Or.inr ⟨hlt, h7, h8, rfl, rfl⟩, h10, h11, h12⟩

theorem changeDelegate_ok {now : Nat} {p p' : Pool} {m m' : Mining} {newD oldD newD' oldD' : Option Mining}
    {amount : Nat} :
    p.changeDelegate now m newD oldD amount = .ok (p', m', newD', oldD') ↔
    m.refreshRewards now p.cumulative = .ok m' ∧ ∃ p1,
      p.withDelegate oldD (Pool.delegateSub now amount) = .ok (p1, oldD') ∧
      p1.withDelegate newD (Pool.delegateAdd now amount) = .ok (p', newD') := by
  unfold Pool.changeDelegate
  simp only [res_bind_ok, Prod.exists, res_pure_ok, Prod.mk.injEq]
  constructor
  · rintro ⟨m1, h1, p1, o, h2, p2, n, h3, rfl, rfl, rfl, rfl⟩
    exact ⟨h1, p1, h2, h3⟩
  · rintro ⟨h1, p1, h2, h3⟩
    exact ⟨_, h1, _, _, h2, _, _, h3, rfl, rfl, rfl, rfl⟩

theorem poolUpdateIndex_ok {caps : Caps} {p p' : Pool} {r t d : Nat} :
    p.updateIndex caps r t d = .ok p' ↔ PRECISION * r < U128 ∧ t ≠ 0 ∧ p.index + PRECISION * r / t < U128 ∧
      p' = { p with cumulative := p.cumulative.insert caps.index d (p.index + PRECISION * r / t),
                    index := p.index + PRECISION * r / t } := by
  unfold Pool.updateIndex
  simp only [res_bind_ok, safeMul128_ok, safeDiv_ok, safeAdd128_ok, res_pure_ok]
  constructor
  · rintro ⟨_, ⟨h1, rfl⟩, _, ⟨h2, rfl⟩, _, ⟨h3, rfl⟩, rfl⟩; exact ⟨h1, h2, h3, rfl⟩
  · rintro ⟨h1, h2, h3, rfl⟩; exact ⟨_, ⟨h1, rfl⟩, _, ⟨h2, rfl⟩, _, ⟨h3, rfl⟩, rfl⟩

theorem distribute_ok {caps : Caps} {now r : Nat} {p p' : Pool} (hp : Sorted p.diffs) :
    p.distribute caps now r = .ok p' ↔ p.totalShare ≠ 0 ∧ dueBy p.diffs (bod now) ≤ p.totalShare ∧
      (p.cumulative.contains (bod now) = true ∧
        p' = { p with totalShare := p.totalShare - dueBy p.diffs (bod now), diffs := after p.diffs (bod now) } ∨
       ¬ p.cumulative.contains (bod now) = true ∧ PRECISION * r < U128 ∧
        p.totalShare - dueBy p.diffs (bod now) ≠ 0 ∧
        p.index + PRECISION * r / (p.totalShare - dueBy p.diffs (bod now)) < U128 ∧ r ≤ p.tokensAvailable ∧
        p' = { p with totalShare := p.totalShare - dueBy p.diffs (bod now), diffs := after p.diffs (bod now),
                      cumulative := p.cumulative.insert caps.index (bod now)
                        (p.index + PRECISION * r / (p.totalShare - dueBy p.diffs (bod now))),
                      index := p.index + PRECISION * r / (p.totalShare - dueBy p.diffs (bod now)),
                      tokensAvailable := p.tokensAvailable - r }) := by
  unfold Pool.distribute
  simp only [res_bind_ok, ensure_ok, poolConsume_ok hp]
  constructor
  · rintro ⟨_, h1, p1, ⟨h2, rfl⟩, h⟩
    refine ⟨h1, h2, ?_⟩
    split at h
    · rename_i hc
      rw [res_pure_ok] at h
      exact Or.inl ⟨hc, h.symm⟩
    · rename_i hc
      simp only [res_bind_ok, poolUpdateIndex_ok, safeSub_ok, res_pure_ok] at h
      obtain ⟨_, ⟨h3, h4, h5, rfl⟩, _, ⟨h6, rfl⟩, rfl⟩ := h
      exact Or.inr ⟨hc, h3, h4, h5, h6, rfl⟩
  · rintro ⟨h1, h2, h⟩
    refine ⟨(), h1, _, ⟨h2, rfl⟩, ?_⟩
    rcases h with ⟨hc, rfl⟩ | ⟨hc, h3, h4, h5, h6, rfl⟩
    · rw [if_pos hc]; rfl
    · rw [if_neg hc]
      simp only [res_bind_ok, poolUpdateIndex_ok, safeSub_ok, res_pure_ok]
      exact ⟨_, ⟨h3, h4, h5, rfl⟩, _, ⟨h6, rfl⟩, rfl⟩

end Verif
