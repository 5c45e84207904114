import Verif.Lemmas.History
import Verif.Spec.Distribution
/-!
The daily amount and the distribution in terms of the specification.
-/

namespace Verif

open Spec

variable {env : Env}

theorem dailyAmount_le (a e n : Nat) : dailyAmount a e n ≤ a := by
  unfold dailyAmount
  split
  · exact Nat.le_refl _
  · exact Nat.div_le_self _ _

theorem day_eq : DAY = 86400 := rfl

theorem rewardsToDistribute_eq {p : Pool} (now : Nat) (h : p.tokensAvailable < U64) :
    p.rewardsToDistribute now = .ok (dailyAmount p.tokensAvailable p.distributionEndsAt now) := by
  have hd : (p.distributionEndsAt - now) / DAY = 0 ↔ p.distributionEndsAt - now < 86400 := by unfold DAY; omega
  unfold Pool.rewardsToDistribute dailyAmount
  simp only
  split
  · rename_i h0; rw [if_pos (hd.mp h0)]
  · rename_i h0
    rw [if_neg (fun hh => h0 (hd.mpr hh))]
    have h1 : p.tokensAvailable * PRECISION < U128 := by unfold PRECISION U128 U64 at *; omega
    have e1 : p.tokensAvailable * PRECISION / ((p.distributionEndsAt - now) / DAY) / PRECISION =
        p.tokensAvailable / ((p.distributionEndsAt - now) / DAY) := by
      rw [Nat.div_div_eq_div_mul, Nat.mul_div_mul_right _ _ (by unfold PRECISION; omega)]
    have h2 : p.tokensAvailable / ((p.distributionEndsAt - now) / DAY) < U64 :=
      Nat.lt_of_le_of_lt (Nat.div_le_self _ _) h
    have h3 : PRECISION ≠ 0 := by unfold PRECISION; omega
    simp only [res_bind_ok, safeMul128_ok, safeDiv_ok, u64TryFrom_ok]
    exact ⟨_, ⟨h1, rfl⟩, _, ⟨h0, rfl⟩, _, ⟨h3, rfl⟩, by rw [e1]; exact h2, by rw [e1, day_eq]⟩

theorem rewardsToDistribute_ok {p : Pool} {now r : Nat} (h : p.rewardsToDistribute now = .ok r) :
    r = dailyAmount p.tokensAvailable p.distributionEndsAt now := by
  have hd : (p.distributionEndsAt - now) / DAY = 0 ↔ p.distributionEndsAt - now < 86400 := by unfold DAY; omega
  unfold Pool.rewardsToDistribute at h
  unfold dailyAmount
  simp only at h
  split at h
  · rename_i h0
    rw [if_pos (hd.mp h0)]
    cases h; rfl
  · rename_i h0
    rw [if_neg (fun hh => h0 (hd.mpr hh))]
    simp only [res_bind_ok, safeMul128_ok, safeDiv_ok, u64TryFrom_ok] at h
    obtain ⟨_, ⟨_, rfl⟩, _, ⟨_, rfl⟩, _, ⟨_, rfl⟩, _, rfl⟩ := h
    rw [Nat.div_div_eq_div_mul, Nat.mul_div_mul_right _ _ (by unfold PRECISION; omega), day_eq]

theorem newDay_iff {p : Pool} {now : Nat} : NewDay p now ↔ ¬ p.cumulative.contains (bod now) = true := by
  rw [SMap.contains_iff, bod_eq_midnight]
  unfold NewDay
  exact ⟨fun h ⟨e, he, h1⟩ => h e he h1, fun h e he h1 => h ⟨e, he, h1⟩⟩

/-- The total the distribution divides by. -/
theorem totalOn_sub {p : Pool} {d : Nat} (h : dueBy p.diffs d ≤ p.totalShare) :
    totalOn p d = ((p.totalShare - dueBy p.diffs d : Nat) : Int) := by
  unfold totalOn; omega

theorem past_lt {p : Pool} {now : Nat} (hp : PoolOk now p) (hn : NewDay p now) : ∀ e ∈ p.cumulative, e.1 < midnight now :=
  fun e he => Nat.lt_of_le_of_ne (hp.past e he) (hn e he)

/-- A distribution on a new day. -/
theorem distribute_new {caps : Caps} {now r : Nat} {p p' : Pool} (hp : PoolOk now p) (hn : NewDay p now)
    (h : p.distribute caps now r = .ok p') :
    ∃ T : Nat, totalOn p (midnight now) = T ∧ 0 < T ∧ r ≤ p.tokensAvailable ∧
      p.index + 10 ^ 16 * r / T < U128 ∧
      p' = { p with totalShare := T, diffs := after p.diffs (midnight now),
                    index := p.index + 10 ^ 16 * r / T,
                    cumulative := if p.cumulative.length < caps.index
                      then p.cumulative ++ [(midnight now, p.index + 10 ^ 16 * r / T)] else p.cumulative
                    tokensAvailable := p.tokensAvailable - r } := by
  rw [distribute_ok hp.sorted] at h
  obtain ⟨_, h2, ⟨hc, _⟩ | ⟨_, h3, h4, h5, h6, h7⟩⟩ := h
  · exact absurd hc (newDay_iff.mp hn)
  · rw [bod_eq_midnight] at *
    refine ⟨_, totalOn_sub h2, Nat.pos_of_ne_zero h4, h6, h5, ?_⟩
    rw [insert_last (past_lt hp hn)] at h7
    exact h7

/-- A distribution on a day already distributed. -/
theorem distribute_again {caps : Caps} {now r : Nat} {p p' : Pool} (hp : PoolOk now p) (hn : ¬ NewDay p now)
    (h : p.distribute caps now r = .ok p') :
    ∃ T : Nat, totalOn p (midnight now) = T ∧ p' = { p with totalShare := T, diffs := after p.diffs (midnight now) } := by
  rw [distribute_ok hp.sorted] at h
  obtain ⟨_, h2, ⟨hc, h⟩ | ⟨h3, _⟩⟩ := h
  · rw [bod_eq_midnight] at *
    exact ⟨_, totalOn_sub h2, h⟩
  · exact absurd (newDay_iff.mpr h3) hn

theorem firstIs_iff {accs : List AccountInfo} {k : Key} : FirstIs accs k ↔ accs[0]?.map (·.key) = some k := by
  cases accs <;> simp [FirstIs]

theorem PoolChange.ok {now : Nat} {w w' : World} {accs : List AccountInfo} {k : Key} {p p' : Pool} {i : Ix}
    (hp : PoolOk now p) (h : PoolChange env now w w' accs k p i p') : PoolOk now p' := by
  cases h with
  | same => exact hp
  | stake _ quiet _ => exact quiet.ok
  | distribute _ _ _ _ _ ok' => exact ok'
  | fill _ _ _ _ _ _ _ =>
    exact ⟨hp.sorted, hp.aligned, hp.history, hp.past, hp.index, bod_mod _, hp.initialized⟩

/-- Budget and index after an instruction. -/
theorem PoolChange.budget {now : Nat} {w w' : World} {accs : List AccountInfo} {k : Key} {p p' : Pool} {i : Ix}
    (hp : PoolOk now p) (h : PoolChange env now w w' accs k p i p') :
    p'.tokensAvailable + distributedFrom accs now k p i = p.tokensAvailable + addedTo accs k i ∧
    p'.index = p.index + 10 ^ 16 * distributedFrom accs now k p i / (totalOn p (midnight now)).toNat := by
  cases h with
  | same other =>
    have h1 : addedTo accs k i = 0 := by
      cases i <;> try rfl
      simp only [addedTo]
      exact if_neg (fun hh => other rfl (firstIs_iff.mp hh))
    have h2 : distributedFrom accs now k p i = 0 := by
      cases i <;> try rfl
      simp only [distributedFrom]
      exact if_neg (fun hh => other rfl (firstIs_iff.mp hh.1))
    rw [h1, h2]; simp
  | stake hi quiet signed =>
    have h1 : addedTo accs k i = 0 := by cases i <;> first | rfl | cases hi
    have h2 : distributedFrom accs now k p i = 0 := by cases i <;> first | rfl | cases hi
    rw [h1, h2, quiet.avail, quiet.index]; simp
  | distribute acc signed amount op same ok' =>
    have hr := rewardsToDistribute_ok amount
    by_cases hn : NewDay p now
    · obtain ⟨T, h1, h2, h3, h4, rfl⟩ := distribute_new hp hn op
      have e1 : distributedFrom accs now k p .distributeRewards =
          dailyAmount p.tokensAvailable p.distributionEndsAt now := if_pos ⟨firstIs_iff.mpr acc, hn⟩
      rw [e1, ← hr, h1]
      refine ⟨?_, by simp⟩
      simp only [addedTo]; omega
    · obtain ⟨T, h1, rfl⟩ := distribute_again hp hn op
      have e1 : distributedFrom accs now k p .distributeRewards = 0 := if_neg (fun hh => hn hh.2)
      rw [e1]; simp [addedTo]
  | fill acc signed nonzero future later endBound bound =>
    simp [distributedFrom, addedTo, if_pos (firstIs_iff.mpr acc)]

/-- The index history after an instruction. -/
theorem PoolChange.history {now : Nat} {w w' : World} {accs : List AccountInfo} {k : Key} {p p' : Pool} {i : Ix}
    (hp : PoolOk now p) (h : PoolChange env now w w' accs k p i p') :
    (p'.cumulative = p.cumulative ∨
      i = .distributeRewards ∧ p'.cumulative = p.cumulative ++ [(midnight now, p'.index)]) ∧ p.index ≤ p'.index := by
  cases h with
  | same other => exact ⟨Or.inl rfl, Nat.le_refl _⟩
  | stake hi quiet signed => exact ⟨Or.inl quiet.cumulative, Nat.le_of_eq quiet.index.symm⟩
  | distribute acc signed amount op same ok' =>
    by_cases hn : NewDay p now
    · obtain ⟨T, h1, h2, h3, h4, rfl⟩ := distribute_new hp hn op
      refine ⟨?_, Nat.le_add_right _ _⟩
      simp only
      split
      · exact Or.inr ⟨trivial, rfl⟩
      · exact Or.inl rfl
    · obtain ⟨T, h1, rfl⟩ := distribute_again hp hn op
      exact ⟨Or.inl rfl, Nat.le_refl _⟩
  | fill acc signed nonzero future later endBound bound => exact ⟨Or.inl rfl, Nat.le_refl _⟩

theorem PoolChange.ends {now : Nat} {w w' : World} {accs : List AccountInfo} {k : Key} {p p' : Pool} {i : Ix}
    (hp : PoolOk now p) (h : PoolChange env now w w' accs k p i p') : p.distributionEndsAt ≤ p'.distributionEndsAt := by
  cases h with
  | same other => exact Nat.le_refl _
  | stake hi quiet signed => exact Nat.le_of_eq quiet.ends.symm
  | distribute acc signed amount op same ok' =>
    by_cases hn : NewDay p now
    · obtain ⟨T, h1, h2, h3, h4, rfl⟩ := distribute_new hp hn op
      exact Nat.le_refl _
    · obtain ⟨T, h1, rfl⟩ := distribute_again hp hn op
      exact Nat.le_refl _
  | fill acc signed nonzero future later endBound bound => exact later

/-- Before an event there was a pool at an address where there is one after it, or it was just initialized. -/
theorem apply_pool_back {s : Chain} (hw : Wf env s.now s.world) {e : Event} (hv : e.Valid env s) (hc : CleanEvent env s e)
    {k : Key} {p' : Pool} (hp : PoolAt env (s.apply env e).world k p') :
    (∃ p, PoolAt env s.world k p ∧ PoolEvent env s k p e p') ∨
    ∃ bump d f t a, p' = Pool.init bump a d f t ∧ ∀ q, ¬ PoolAt env s.world k q := by
  cases e with
  | ix accs i =>
    cases hx : exec env s.now s.world accs i with
    | error e =>
      rw [apply_ix_error hx] at hp
      exact Or.inl ⟨p', hp, .same (by rintro _ _ h; cases h; exact ⟨e, hx⟩)⟩
    | ok r =>
      obtain ⟨w', ret⟩ := r
      rw [apply_ix_ok hx] at hp
      have hstep := step_of_exec hw hv hc hx
      rcases hstep.newPool hp with ⟨p, h1⟩ | ⟨f, d, P, T, V, Y, A, rest, bump, -, -, -, h1, h2, -⟩
      · obtain ⟨p'', h2, h3, -⟩ := hstep.pool h1
        obtain rfl := PoolAt.unique hp h2
        exact Or.inl ⟨p, h1, .ix hx h3⟩
      · exact Or.inr ⟨_, _, _, _, _, h1, h2⟩
  | tick d => exact Or.inl ⟨p', hp, .same (by rintro _ _ h; cases h)⟩
  | gc j =>
    by_cases hk : k = j
    · subst hk
      have h1 := hp.1
      simp only [Chain.apply] at h1
      rw [world_set_same] at h1
      exact absurd h1.symm env.program_ne_system
    · have e1 : (s.apply env (.gc j)).world k = s.world k := world_set_ne _ _ hk
      exact Or.inl ⟨p', (poolAt_congr e1).mp hp, .same (by rintro _ _ h; cases h)⟩
  | ext w' =>
    by_cases ho : (s.world k).owner = env.programId
    · obtain ⟨e1, -, e3, -⟩ := hv.program_owned k ho
      exact Or.inl ⟨p', ⟨ho, e3 ▸ hp.2⟩, .same (by rintro _ _ h; cases h)⟩
    · have := (hv.new_zero k ho hp.1).1
      have h2 : (w' k).content = .pool p' := hp.2
      rw [h2] at this; cases this

/-- Invariants of all pools of all reachable states. -/
theorem reachable_pool {Q : Pool → Prop} (hinit : ∀ bump a d f t, Q (Pool.init bump a d f t))
    (hstep : ∀ now w w' accs k p p' i, PoolOk now p → Q p → PoolChange env now w w' accs k p i p' → Q p')
    {s : Chain} (hr : Reachable env s) {k : Key} {p : Pool} (hp : PoolAt env s.world k p) : Q p := by
  have key : ∀ k p, PoolAt env s.world k p → Q p := by
    refine reachable_induction (Q := fun s => ∀ k p, PoolAt env s.world k p → Q p) ?_ ?_ hr
    · intro s hg k p hp
      have := (hg.owned k hp.1).1
      rw [hp.2] at this; cases this
    · intro s e hw hv hc ih k p' hp
      rcases apply_pool_back hw hv hc hp with ⟨p, h1, h2⟩ | ⟨bump, d, f, t, a, rfl, -⟩
      · cases h2 with
        | same => exact ih k _ h1
        | ix ok change => exact hstep _ _ _ _ _ _ _ _ (poolAt_good hw h1).ok (ih k p h1) change
      · exact hinit _ _ _ _ _
  exact key k p hp

/-- As long as the history has room, the current index is the one recorded last. -/
theorem index_recorded {s : Chain} (hr : Reachable env s) {k : Key} {p : Pool} (hp : PoolAt env s.world k p)
    (hroom : p.cumulative.length < env.caps.index) : p.index = lastIndex 0 p.cumulative := by
  refine reachable_pool (Q := fun p => p.cumulative.length < env.caps.index → p.index = lastIndex 0 p.cumulative)
    ?_ ?_ hr hp hroom
  · intros; rfl
  · intro now w w' accs k p p' i hok hq hch hlen
    cases hch with
    | same other => exact hq hlen
    | stake hi quiet signed =>
      rw [quiet.index, quiet.cumulative]; rw [quiet.cumulative] at hlen; exact hq hlen
    | distribute acc signed amount op same ok' =>
      by_cases hn : NewDay p now
      · obtain ⟨T, h1, h2, h3, h4, rfl⟩ := distribute_new hok hn op
        simp only at hlen ⊢
        split at hlen
        · rename_i hl
          rw [if_pos hl, lastIndex_append]; rfl
        · rename_i hl; exact absurd hlen hl
      · obtain ⟨T, h1, rfl⟩ := distribute_again hok hn op
        exact hq hlen
    | fill acc signed nonzero future later endBound bound => exact hq hlen

/-- Handing out a share of what is left: the next share is the same or one more. -/
theorem even_div (a d : Nat) (h : 2 ≤ d) : a / d ≤ (a - a / d) / (d - 1) ∧ (a - a / d) / (d - 1) ≤ a / d + 1 := by
  obtain ⟨c, rfl⟩ : ∃ c, d = c + 1 := ⟨d - 1, by omega⟩
  have hc : 0 < c := by omega
  have e1 := Nat.div_add_mod a (c + 1)
  have e2 := Nat.mod_lt a (show 0 < c + 1 by omega)
  generalize a / (c + 1) = q at *
  generalize a % (c + 1) = x at *
  have e3 : a - q = c * q + x := by rw [← e1]; rw [Nat.add_mul]; omega
  rw [Nat.add_sub_cancel, e3]
  constructor
  · rw [Nat.le_div_iff_mul_le hc]; rw [Nat.mul_comm]; exact Nat.le_add_right _ _
  · rw [Nat.div_le_iff_le_mul_add_pred hc, Nat.mul_add]; omega

end Verif
