import Verif.Lemmas.History
import Verif.Spec.Ranges
/-!
Every number stays in range.
-/

namespace Verif

open Spec

variable {env : Env}

theorem u64_eq : U64 = 2 ^ 64 := by decide
theorem u128_eq : U128 = 2 ^ 128 := by decide

theorem put_length {D : SMap} (hs : Sorted D) (k v : Nat) :
    (SMap.put D k v).length = if D.contains k = true then D.length else D.length + 1 := by
  induction D with
  | nil => simp [SMap.put, SMap.contains, SMap.get]
  | cons a t ih =>
    obtain ⟨a1, a2⟩ := a
    rw [sorted_cons] at hs
    by_cases h1 : k < a1
    · have hn : SMap.get t k = none := by
        rw [SMap.get_none]
        intro e he
        have := hs.1 e he
        simp only at this
        omega
      have h2 : k ≠ a1 := by omega
      simp [SMap.put, SMap.contains, SMap.get, h1, h2, hn]
    · by_cases h2 : k = a1
      · simp [SMap.put, SMap.contains, SMap.get, h2]
      · have := ih hs.2
        simp only [SMap.contains] at this
        simp only [SMap.put, SMap.contains, SMap.get, if_neg h1, if_neg h2, List.length_cons, this]
        by_cases h3 : (SMap.get t k).isSome = true
        · simp [h3]
        · simp [h3]

theorem insert_length {D : SMap} (hs : Sorted D) {cap k v : Nat} (h : D.length ≤ cap) :
    (SMap.insert cap D k v).length ≤ cap := by
  unfold SMap.insert
  split
  · rename_i hc
    rw [put_length hs]
    split
    · exact h
    · rename_i hn
      rcases hc with hc | hc
      · exact absurd hc hn
      · omega
  · exact h

theorem put_get_length {D : SMap} (hs : Sorted D) {k v o : Nat} (h : SMap.get D k = some o) :
    (SMap.put D k v).length = D.length := by
  rw [put_length hs, if_pos (by simp [SMap.contains, h])]

/-- Entries of a table fit in 64 bits. -/
def Fit64 (D : SMap) : Prop := ∀ e ∈ D, e.1 < 2 ^ 64 ∧ e.2 < 2 ^ 64

theorem Fit64.put {D : SMap} (h : Fit64 D) {k v : Nat} (hk : k < 2 ^ 64) (hv : v < 2 ^ 64) : Fit64 (SMap.put D k v) := by
  intro e he
  rcases SMap.mem_put he with rfl | he
  · exact ⟨hk, hv⟩
  · exact h e he

theorem Fit64.insert {D : SMap} (h : Fit64 D) {c k v : Nat} (hk : k < 2 ^ 64) (hv : v < 2 ^ 64) :
    Fit64 (SMap.insert c D k v) := by
  unfold SMap.insert; split
  · exact h.put hk hv
  · exact h

theorem Fit64.after {D : SMap} (h : Fit64 D) (b : Nat) : Fit64 (after D b) :=
  fun e he => h e (mem_after.mp he).1

theorem after_length (D : SMap) (b : Nat) : (after D b).length ≤ D.length := List.length_filter_le ..

theorem lastIndex_lt {B : Nat} {l : List (Nat × Nat)} (h : ∀ e ∈ l, e.2 < B) {p : Nat} (hp : p < B) :
    lastIndex p l < B := by
  induction l generalizing p with
  | nil => exact hp
  | cons a t ih => exact ih (fun e he => h e (by simp [he])) (h a (by simp))

theorem indexBefore_lt {B : Nat} (hB : 0 < B) {l : List (Nat × Nat)} (h : ∀ e ∈ l, e.2 < B) (t : Nat) :
    indexBefore l t < B :=
  lastIndex_lt (fun e he => h e (List.mem_filter.mp he |>.1)) hB

theorem refresh_fits {caps : Caps} {now : Nat} {cum : SMap} (hc : History cum) (hv : ∀ e ∈ cum, e.2 < 2 ^ 128)
    {m m' : Mining} (hm : MiningOk m) (hf : MiningFits caps m) (h : m.refreshRewards now cum = .ok m') :
    MiningFits caps m' := by
  obtain ⟨c, rfl, h1, h2, h3, h4, h5, h6⟩ := refresh_ok hc hm.sorted h
  refine ⟨indexBefore_lt (by decide) hv _, ?_, ?_, hf.sfo, Fit64.after hf.diffs _, ?_⟩
  · exact Nat.lt_of_le_of_lt (Nat.sub_le _ _) hf.share
  · have := h4 (by rw [u64_eq]; exact hf.unclaimed); rw [u64_eq] at this; exact this
  · exact Nat.le_trans (after_length _ _) hf.room

/-- What holds of the pool at a stake operation. -/
structure PoolIn (caps : Caps) (now : Nat) (p : Pool) : Prop where
  ok : PoolOk now p
  fits : PoolFits caps p

theorem PoolIn.withTotal {caps : Caps} {now : Nat} {p : Pool} (h : PoolIn caps now p) {t : Nat} (ht : t < 2 ^ 64) :
    PoolIn caps now { p with totalShare := t } :=
  ⟨⟨h.ok.1, h.ok.2, h.ok.3, h.ok.4, h.ok.5, h.ok.6, h.ok.7⟩,
   ⟨h.fits.1, ht, h.fits.3, h.fits.4, h.fits.5, h.fits.6, h.fits.7, h.fits.8⟩⟩

theorem PoolIn.withDiffs {caps : Caps} {now : Nat} {p : Pool} (h : PoolIn caps now p) {t : Nat} (ht : t < 2 ^ 64) {D : SMap}
    (hs : Sorted D) (ha : ∀ e ∈ D, e.1 % 86400 = 0) (hf : Fit64 D) (hl : D.length ≤ caps.pool) :
    PoolIn caps now { p with totalShare := t, diffs := D } :=
  ⟨⟨hs, ha, h.ok.3, h.ok.4, h.ok.5, h.ok.6, h.ok.7⟩,
   ⟨h.fits.1, ht, h.fits.3, h.fits.4, hf, hl, h.fits.7, h.fits.8⟩⟩

theorem PoolIn.refresh {caps : Caps} {now : Nat} {p : Pool} (hp : PoolIn caps now p) {m m' : Mining} (hm : MiningOk m)
    (hf : MiningFits caps m) (h : m.refreshRewards now p.cumulative = .ok m') : MiningOk m' ∧ MiningFits caps m' :=
  ⟨(refresh_same hp.ok.history hm h).2.1, refresh_fits hp.ok.history (fun e he => (hp.fits.cumulative e he).2) hm hf h⟩

/-- An optional delegate. -/
def DelIn (caps : Caps) (d : Option Mining) : Prop := ∀ x, d = some x → MiningOk x ∧ MiningFits caps x

theorem withSub_fits {caps : Caps} {now a : Nat} {p p' : Pool} {d d' : Option Mining} (hp : PoolIn caps now p)
    (hd : DelIn caps d) (h : p.withDelegate d (Pool.delegateSub now a) = .ok (p', d')) :
    PoolIn caps now p' ∧ DelIn caps d' := by
  cases d with
  | none => rw [withDelegate_none] at h; obtain ⟨rfl, rfl⟩ := h; exact ⟨hp, hd⟩
  | some x =>
    rw [withDelegate_some] at h
    obtain ⟨y, h, rfl⟩ := h
    rw [delegateSub_ok] at h
    obtain ⟨h1, h2, h3, rfl⟩ := h
    obtain ⟨g1, g2⟩ := hd x rfl
    refine ⟨hp.withTotal (Nat.lt_of_le_of_lt (Nat.sub_le _ _) hp.fits.total), ?_⟩
    rintro z hz; cases hz
    exact hp.refresh (m := { x with stakeFromOthers := x.stakeFromOthers - a }) ⟨g1.1, g1.2⟩
      ⟨g2.1, g2.2, g2.3, Nat.lt_of_le_of_lt (Nat.sub_le _ _) g2.sfo, g2.5, g2.6⟩ h3

theorem withAdd_fits {caps : Caps} {now a : Nat} {p p' : Pool} {d d' : Option Mining} (hp : PoolIn caps now p)
    (hd : DelIn caps d) (h : p.withDelegate d (Pool.delegateAdd now a) = .ok (p', d')) :
    PoolIn caps now p' ∧ DelIn caps d' := by
  cases d with
  | none => rw [withDelegate_none] at h; obtain ⟨rfl, rfl⟩ := h; exact ⟨hp, hd⟩
  | some x =>
    rw [withDelegate_some] at h
    obtain ⟨y, h, rfl⟩ := h
    rw [delegateAdd_ok] at h
    obtain ⟨h1, h2, h3, rfl⟩ := h
    obtain ⟨g1, g2⟩ := hd x rfl
    rw [u64_eq] at h1 h2
    refine ⟨hp.withTotal h2, ?_⟩
    rintro z hz; cases hz
    exact hp.refresh (m := { x with stakeFromOthers := x.stakeFromOthers + a }) ⟨g1.1, g1.2⟩
      ⟨g2.1, g2.2, g2.3, h1, g2.5, g2.6⟩ h3

theorem end_lt {per : LockupPeriod} {now e : Nat} (h : per.endTimestamp now = .ok e) : e < 2 ^ 64 := by
  obtain ⟨n, -, h1, rfl⟩ := endTimestamp_ok.mp h
  rw [← u64_eq]; exact h1

theorem deposit_fits {caps : Caps} {now : Nat} {p p' : Pool} {m m' : Mining} {a : Nat} {per : LockupPeriod}
    {d d' : Option Mining} (hp : PoolIn caps now p) (hm : MiningOk m) (hf : MiningFits caps m) (hd : DelIn caps d)
    (h : p.deposit caps now m a per d = .ok (p', m', d')) :
    PoolIn caps now p' ∧ MiningFits caps m' ∧ DelIn caps d' := by
  obtain ⟨m1, e, h1, h2, h3, h4, h5, h6, h7, h8, rfl, h10⟩ :=
    deposit_ok (fun m1 h1 => (hp.refresh hm hf h1).1.sorted) h
  obtain ⟨g1, g2⟩ := hp.refresh hm hf h1
  rw [u64_eq] at h4 h5 h6 h7 h8
  have he := end_lt h2
  have hea := end_aligned h2
  obtain ⟨k1, k2⟩ := withAdd_fits (hp.withDiffs h5 (addAt_sorted hp.ok.sorted ..) (addAt_aligned hp.ok.aligned hea)
    (Fit64.insert hp.fits.diffs he h7) (insert_length hp.ok.sorted hp.fits.room)) hd h10
  exact ⟨k1, ⟨g2.1, h6, g2.3, g2.4, Fit64.insert g2.diffs he h8, insert_length g1.sorted g2.room⟩, k2⟩

theorem consumed_in {caps : Caps} {now : Nat} {p : Pool} (hp : PoolIn caps now p) {t : Nat} (ht : t ≤ p.totalShare) :
    PoolIn caps now { p with totalShare := t, diffs := after p.diffs (bod now) } :=
  hp.withDiffs (Nat.lt_of_le_of_lt ht hp.fits.total) (after_sorted hp.ok.sorted _) (after_aligned hp.ok.aligned)
    (Fit64.after hp.fits.diffs _) (Nat.le_trans (after_length _ _) hp.fits.room)

theorem withdraw_fits {caps : Caps} {now : Nat} {p p' : Pool} {m m' : Mining} {a : Nat}
    {d d' : Option Mining} (hp : PoolIn caps now p) (hm : MiningOk m) (hf : MiningFits caps m) (hd : DelIn caps d)
    (h : p.withdraw now m a d = .ok (p', m', d')) :
    PoolIn caps now p' ∧ MiningFits caps m' ∧ DelIn caps d' := by
  obtain ⟨m1, h1, h2, h3, rfl, h5⟩ := withdraw_ok hp.ok.sorted h
  obtain ⟨g1, g2⟩ := hp.refresh hm hf h1
  obtain ⟨k1, k2⟩ := withSub_fits (consumed_in hp (by omega)) hd h5
  exact ⟨k1, ⟨g2.1, Nat.lt_of_le_of_lt (Nat.sub_le _ _) g2.share, g2.3, g2.4, g2.5, g2.6⟩, k2⟩

theorem slash_fits {caps : Caps} {now : Nat} {p p' : Pool} {m m' : Mining} {n mu : Nat} {ex : Option Nat}
    (hp : PoolIn caps now p) (hm : MiningOk m) (hf : MiningFits caps m)
    (h : p.slash now m n mu ex = .ok (p', m')) : PoolIn caps now p' ∧ MiningFits caps m' := by
  obtain ⟨m1, h1, h2, h3, h4⟩ := slash_ok hp.ok.sorted (fun m1 h1 => (hp.refresh hm hf h1).1.sorted) h
  obtain ⟨g1, g2⟩ := hp.refresh hm hf h1
  have hsh : m1.share - mu < 2 ^ 64 := Nat.lt_of_le_of_lt (Nat.sub_le _ _) g2.share
  rcases h4 with ⟨rfl, rfl, rfl⟩ | ⟨ts, om, op, rfl, k1, k2, k3, k4, k5, rfl, rfl⟩
  · exact ⟨consumed_in hp (by omega), ⟨g2.1, hsh, g2.3, g2.4, g2.5, g2.6⟩⟩
  · have e1 := SMap.get_some_mem k2
    have e2 := SMap.get_some_mem k3
    have f1 := g2.diffs _ e1
    have f2 := Fit64.after hp.fits.diffs _ _ e2
    have hs := after_sorted hp.ok.sorted (bod now)
    simp only at f1 f2
    refine ⟨hp.withDiffs (by have := hp.fits.total; omega) (SMap.put_sorted hs _ _)
      (put_aligned (after_aligned hp.ok.aligned) k3) (Fit64.put (Fit64.after hp.fits.diffs _) f1.1 (by omega)) ?_,
      ⟨g2.1, hsh, g2.3, g2.4, Fit64.put g2.diffs f1.1 (by omega), ?_⟩⟩
    · rw [put_get_length hs k3]; exact Nat.le_trans (after_length _ _) hp.fits.room
    · show (SMap.put _ _ _).length ≤ _
      rw [put_get_length g1.sorted k2]; exact g2.room

theorem extend_fits {caps : Caps} {now : Nat} {p p' : Pool} {m m' : Mining} {op np : LockupPeriod} {ts b a : Nat}
    {d d' : Option Mining} (hp : PoolIn caps now p) (hm : MiningOk m) (hf : MiningFits caps m) (hd : DelIn caps d)
    (h : p.extend caps now m op np ts b a d = .ok (p', m', d')) :
    PoolIn caps now p' ∧ MiningFits caps m' ∧ DelIn caps d' := by
  obtain ⟨m1, oe, p2, m2, p3, d3, h1, h2, h3, h4, h5, h6⟩ := extend_ok (fun m1 h1 => (hp.refresh hm hf h1).1.sorted) h
  obtain ⟨g1, g2⟩ := hp.refresh hm hf h1
  have hpm : PoolIn caps now p2 ∧ MiningOk m2 ∧ MiningFits caps m2 := by
    rcases h3 with ⟨_, _, _, ⟨old, k1, k2, rfl⟩, k3, k4, rfl⟩ | ⟨_, k3, k4, rfl, rfl⟩
    · have f := g2.diffs _ (SMap.get_some_mem k1)
      simp only at f
      refine ⟨hp.withTotal (Nat.lt_of_le_of_lt (Nat.sub_le _ _) hp.fits.total),
        ⟨SMap.put_sorted g1.sorted _ _, put_aligned g1.aligned k1⟩, ⟨g2.1,
        Nat.lt_of_le_of_lt (Nat.sub_le _ _) g2.share, g2.3, g2.4, Fit64.put g2.diffs f.1 (by omega), ?_⟩⟩
      show (SMap.put _ _ _).length ≤ _
      rw [put_get_length g1.sorted k1]; exact g2.room
    · exact ⟨hp.withTotal (Nat.lt_of_le_of_lt (Nat.sub_le _ _) hp.fits.total), ⟨g1.1, g1.2⟩,
        ⟨g2.1, Nat.lt_of_le_of_lt (Nat.sub_le _ _) g2.share, g2.3, g2.4, g2.5, g2.6⟩⟩
  obtain ⟨k1, k2⟩ := withSub_fits hpm.1 hd h5
  exact deposit_fits k1 hpm.2.1 hpm.2.2 k2 h6

theorem decreaseLoop_entry_le (n : Nat) (l : List (Nat × Nat)) : ∀ e ∈ Mining.decreaseLoop n l, ∃ x ∈ l, e.1 = x.1 ∧ e.2 ≤ x.2 := by
  induction l generalizing n with
  | nil => simp [Mining.decreaseLoop]
  | cons a t ih =>
    obtain ⟨a1, a2⟩ := a
    intro e he
    unfold Mining.decreaseLoop at he
    split at he
    · simp only [List.mem_cons] at he
      rcases he with rfl | he
      · exact ⟨(a1, a2), by simp, rfl, Nat.sub_le _ _⟩
      · exact ⟨e, by simp [he], rfl, Nat.le_refl _⟩
    · simp only [List.mem_cons] at he
      rcases he with rfl | he
      · exact ⟨(a1, a2), by simp, rfl, Nat.zero_le _⟩
      · obtain ⟨x, hx, h1⟩ := ih _ e he
        exact ⟨x, by simp [hx], h1⟩

theorem decrease_fits {caps : Caps} {m m' : Mining} {n : Nat} (hf : MiningFits caps m) (h : m.decreaseRewards n = .ok m') :
    MiningFits caps m' := by
  rw [decreaseRewards_ok] at h
  rcases h with ⟨_, rfl⟩ | ⟨_, _, rfl⟩
  · exact hf
  · refine ⟨hf.1, Nat.lt_of_le_of_lt (Nat.sub_le _ _) hf.share, hf.3, hf.4, ?_, ?_⟩
    · intro e he
      obtain ⟨x, hx, h1, h2⟩ := decreaseLoop_entry_le _ _ e (List.mem_reverse.mp he)
      have := hf.diffs x (List.mem_reverse.mp hx)
      rw [h1]; omega
    · have := congrArg List.length (decrease_keys n m.diffs)
      simp only [List.length_map] at this
      show List.length _ ≤ _
      rw [this]; exact hf.room

theorem distribute_fits {caps : Caps} {now r : Nat} (hn : now < 2 ^ 64) {p p' : Pool} (hp : PoolIn caps now p)
    (h : p.distribute caps now r = .ok p') : PoolFits caps p' := by
  rw [distribute_ok hp.ok.sorted] at h
  obtain ⟨h1, h2, ⟨-, rfl⟩ | ⟨-, h3, h4, h5, h6, rfl⟩⟩ := h
  · exact (consumed_in hp (by omega)).fits
  · have := (consumed_in hp (t := p.totalShare - dueBy p.diffs (bod now)) (by omega)).fits
    rw [u128_eq] at h5
    refine ⟨h5, this.2, this.3, Nat.lt_of_le_of_lt (Nat.sub_le _ _) this.4, this.5, this.6, ?_, ?_⟩
    · intro e he
      rcases insert_mem e he with rfl | he
      · exact ⟨Nat.lt_of_le_of_lt (bod_le _) hn, h5⟩
      · exact this.7 e he
    · exact insert_length hp.ok.history.sorted this.8

theorem viewed_fits {now : Nat} {w : World} (hw : Wf env now w) (hf : AllFit env w) {k : Key} {x : Mining}
    (ho : (w k).owner = env.programId) (hn : ∀ q, ¬ PoolAt env w k q) (hv : viewMining env (w k).content = some x) :
    MiningFits env.caps x := by
  rcases (hw k).content ho with e | ⟨q, e, -⟩ | ⟨m, e, -⟩
  · rw [e] at hv
    simp only [viewMining, Option.some.injEq] at hv
    subst hv
    exact ⟨by decide, by decide, by decide, by decide, by simp [Mining.zero], Nat.zero_le _⟩
  · exact absurd ⟨ho, e⟩ (hn q)
  · have hx : m = x := by simpa [e, viewMining] using hv
    rw [← hx]; exact hf.minings k m ⟨ho, e⟩

theorem stakeOp_fits {caps : Caps} {now : Nat} {p p' : Pool} {m m' : Mining} {d d' : Option Mining} {i : Ix}
    (hp : PoolIn caps now p) (hm : MiningOk m) (hf : MiningFits caps m) (hd : DelIn caps d)
    (h : StakeOp caps now p m d p' m' d' i) : PoolIn caps now p' ∧ MiningFits caps m' ∧ DelIn caps d' := by
  cases i <;> first
    | exact h.elim
    | exact deposit_fits hp hm hf hd h
    | exact withdraw_fits hp hm hf hd h
    | exact extend_fits hp hm hf hd h
    | (obtain ⟨h, rfl, rfl⟩ := h; obtain ⟨h1, h2⟩ := slash_fits hp hm hf h; exact ⟨h1, h2, hd⟩)

theorem Mining.init_fits (caps : Caps) (P o : Key) (b : Nat) : MiningFits caps (Mining.init P o b) where
  index := by show 0 < _; decide
  share := by show 0 < _; decide
  unclaimed := by show 0 < _; decide
  sfo := by show 0 < _; decide
  diffs := by intro e he; simp [Mining.init, Mining.zero] at he
  room := Nat.zero_le _

theorem Pool.init_fits (caps : Caps) (b : Nat) (A d f T : Key) : PoolFits caps (Pool.init b A d f T) where
  index := by show 0 < _; decide
  total := by show 0 < _; decide
  ends := by show 0 < _; decide
  tokens := by show 0 < _; decide
  diffs := by intro e he; simp [Pool.init, Pool.zero] at he
  room := Nat.zero_le _
  cumulative := by intro e he; simp [Pool.init, Pool.zero] at he
  history := Nat.zero_le _

/-- One instruction keeps everything in range. -/
theorem Step.fits {now : Nat} {w w' : World} {accs : List AccountInfo} {i : Ix} {ret : Option Nat} (hn : now < 2 ^ 64)
    (hw : Wf env now w) (hf : AllFit env w) (h : Step env now w w' accs i ret) : AllFit env w' := by
  have hpools := fun k p' hp => h.newPool (k := k) (p' := p') hp
  have hminings := fun k m' hm => h.newMining (k := k) (m' := m') hm
  have pin : ∀ k p, PoolAt env w k p → PoolIn env.caps now p :=
    fun k p hp => ⟨(poolAt_good hw hp).ok, hf.pools k p hp⟩
  have tok : ∀ k j, (w k).owner = env.programId → (w j).owner = env.tokenProgram → k ≠ j := by
    rintro k j hk hj rfl; exact env.program_ne_token (hk.symm.trans hj)
  have sys : ∀ k j, (w k).owner = env.programId → (w j).owner = env.systemProgram → k ≠ j := by
    rintro k j hk hj rfl; exact env.program_ne_system (hk.symm.trans hj)
  have samePool : ∀ k p', PoolAt env w' k p' → w' k = w k → PoolFits env.caps p' :=
    fun k p' hp e => hf.pools k p' ((poolAt_congr e).mp hp)
  have sameMining : ∀ k m', MiningAt env w' k m' → w' k = w k → MiningFits env.caps m' :=
    fun k m' hm e => hf.minings k m' ((miningAt_congr e).mp hm)
  -- a pool that was there before
  have pools : (∀ k p p', PoolAt env w k p → PoolAt env w' k p' → PoolFits env.caps p') →
      ∀ k p', PoolAt env w' k p' → PoolFits env.caps p' := by
    intro hh k p' hp
    rcases hpools k p' hp with ⟨p, h1⟩ | ⟨_, _, _, _, _, _, _, _, _, _, _, _, rfl, _⟩
    · exact hh k p p' h1 hp
    · exact Pool.init_fits ..
  cases h with
  | @stake _ P M A D q q' m m' d d' accs_eq op chk del quiet same sfo ok' sameDel eff shell written =>
    have hd : DelIn env.caps d := by
      rintro x rfl
      refine ⟨(del x rfl).ok, ?_⟩
      rcases eff.delegate with ⟨-, h1, -⟩ | ⟨-, -, h1, x1, x', h2, h3, -⟩
      · cases h1
      · obtain ⟨⟨x2, h4, h5, h6⟩, -⟩ := written x' h3
        cases h4
        exact viewed_fits hw hf h5 h1 h6
    obtain ⟨k1, k2, k3⟩ := stakeOp_fits (pin _ _ eff.pool) chk.miningOk (hf.minings _ _ eff.mining) hd op
    refine ⟨pools fun k p p' h1 h2 => ?_, fun k y hy => ?_⟩
    · rcases eff.pools h1 with ⟨rfl, rfl, h3⟩ | ⟨_, h3⟩
      · rw [PoolAt.unique h2 h3]; exact k1.fits
      · rw [PoolAt.unique h2 h3]; exact hf.pools _ _ h1
    · by_cases e1 : k = M.key
      · subst e1; rw [MiningAt.unique hy eff.mining']; exact k2
      · by_cases e2 : k = D.key
        · subst e2
          rcases eff.delegate with ⟨h1, -⟩ | ⟨-, -, h1, x1, x', h2, h3, -⟩
          · exact absurd h1 e1
          · obtain ⟨-, h4⟩ := written x' h3
            rw [h4 y hy]; exact (k3 x' h3).2
        · by_cases e3 : k = P.key
          · subst e3; exact absurd hy (PoolAt.not_mining eff.pool')
          · exact sameMining k y hy (eff.frame k e3 e1 e2)
  | @redelegate a nd P M A O Old New rest q q' m m' od od' dn dn' accs_eq signed op chk newDel oldOk oldAt ne quiet same sfo
      ok' sameNew sameOld neP eff shell writtenOld writtenNew =>
    have ho : DelIn env.caps od := by
      rintro x rfl
      refine ⟨oldOk x rfl, ?_⟩
      rcases eff.old with ⟨-, h1, -⟩ | ⟨-, h1, x1, x', h2, h3, -⟩
      · cases h1
      · obtain ⟨⟨x2, h4, h5, h6⟩, -⟩ := writtenOld x' h3
        cases h4
        exact viewed_fits hw hf h5 h1 h6
    have hn : DelIn env.caps dn := by
      rintro x rfl
      refine ⟨(newDel x rfl).ok, ?_⟩
      rcases eff.new with ⟨-, h1, -⟩ | ⟨-, h1, x1, x', h2, h3, -⟩
      · cases h1
      · obtain ⟨⟨x2, h4, h5, h6⟩, -⟩ := writtenNew x' h3
        cases h4
        exact viewed_fits hw hf h5 h1 h6
    obtain ⟨g1, p1, g2, g3⟩ := changeDelegate_ok.mp op
    have k2 := ((pin _ _ eff.pool).refresh chk.miningOk (hf.minings _ _ eff.mining) g1).2
    obtain ⟨j1, j2⟩ := withSub_fits (pin _ _ eff.pool) ho g2
    obtain ⟨k1, j3⟩ := withAdd_fits j1 hn g3
    refine ⟨pools fun k p p' h1 h2 => ?_, fun k y hy => ?_⟩
    · by_cases e1 : k = P.key
      · subst e1; rw [PoolAt.unique h2 eff.pool']; exact k1.fits
      · refine samePool k p' h2 (eff.frame k e1 ?_ ?_ ?_)
        · rintro rfl; exact PoolAt.not_mining h1 eff.mining
        · rintro rfl
          rcases eff.old with ⟨h3, -⟩ | ⟨-, h3, -⟩
          · rw [h3] at h1; exact PoolAt.not_mining h1 eff.mining
          · exact h3 p h1
        · rintro rfl
          rcases eff.new with ⟨h3, -⟩ | ⟨-, h3, -⟩
          · rw [h3] at h1; exact PoolAt.not_mining h1 eff.mining
          · exact h3 p h1
    · by_cases e1 : k = M.key
      · subst e1; rw [MiningAt.unique hy eff.mining']; exact k2
      · by_cases e2 : k = Old.key
        · subst e2
          rcases eff.old with ⟨h1, -⟩ | ⟨-, h1, x1, x', h2, h3, -⟩
          · exact absurd h1 e1
          · obtain ⟨-, h4⟩ := writtenOld x' h3
            rw [h4 y hy]; exact (j2 x' h3).2
        · by_cases e4 : k = New.key
          · subst e4
            rcases eff.new with ⟨h1, -⟩ | ⟨-, h1, x1, x', h2, h3, -⟩
            · exact absurd h1 e1
            · obtain ⟨-, h4⟩ := writtenNew x' h3
              rw [h4 y hy]; exact (j3 x' h3).2
          · by_cases e3 : k = P.key
            · subst e3; exact absurd hy (PoolAt.not_mining eff.pool')
            · exact sameMining k y hy (eff.frame k e3 e1 e2 e4)
  | @decrease o n A P M rest p m1 m1' accs_eq chk pool op mining mining' same ok' sfo frame shell =>
    refine ⟨pools fun k p p' h1 h2 => ?_, fun k y hy => ?_⟩
    · exact samePool k p' h2 (frame k (by rintro rfl; exact PoolAt.not_mining h1 mining))
    · by_cases e1 : k = M.key
      · subst e1; rw [MiningAt.unique hy mining']; exact decrease_fits (hf.minings _ _ mining) op
      · exact sameMining k y hy (frame k e1)
  | @claim P T V M O A U K rest p m1 m2 n accs_eq signedO signedA eff =>
    obtain ⟨t, ht, -⟩ := eff.userTok
    refine ⟨pools fun k p p' h1 h2 => ?_, fun k y hy => ?_⟩
    · exact samePool k p' h2 (eff.frame k (by rintro rfl; exact PoolAt.not_mining h1 eff.mining) (tok _ _ h1.1 eff.vaultTok)
        (tok _ _ h1.1 ht.1))
    · by_cases e1 : k = M.key
      · subst e1
        rw [MiningAt.unique hy eff.mining']
        have := ((pin _ _ eff.pool).refresh eff.miningOk (hf.minings _ _ eff.mining) eff.refreshed).2
        exact ⟨this.1, this.2, by show 0 < _; decide, this.4, this.5, this.6⟩
      · rcases hminings k y hy with ⟨m0, h1⟩ | ⟨h1, -⟩ | ⟨_, _, _, _, _, _, h1, _⟩
        · exact sameMining k y hy (eff.frame k e1 (tok _ _ h1.1 eff.vaultTok) (tok _ _ h1.1 ht.1))
        · exfalso
          by_cases h2 : n = 0
          · rw [(miningAt_congr (eff.zero h2 k e1))] at hy
            rw [hy.2] at h1; cases h1
          · obtain ⟨w1, h3, h4⟩ := eff.transfer (by omega)
            have e2 : (w k).owner = env.programId := by
              rw [← h3 k e1, ← (h4.meta' k).1]; exact hy.1
            have e3 := eff.frame k e1 (tok _ _ e2 eff.vaultTok) (tok _ _ e2 ht.1)
            rw [miningAt_congr e3] at hy
            rw [hy.2] at h1; cases h1
        · cases h1
  | @distribute P B rest q q' r accs_eq signed auth good pool pool' amount op same ok' frame shell =>
    refine ⟨pools fun k p p' h1 h2 => ?_, fun k y hy => ?_⟩
    · by_cases e1 : k = P.key
      · subst e1; rw [PoolAt.unique h2 pool']; exact distribute_fits hn (pin _ _ pool) op
      · exact samePool k p' h2 (frame k e1)
    · exact sameMining k y hy (frame k (by rintro rfl; exact PoolAt.not_mining pool' hy))
  | @fill r e P T V F S K rest q w1 accs_eq signed auth good pool vault nonzero future later endBound bound pool' w1_frame
      transfer frame neS neV shell =>
    obtain ⟨t, t', ht, ht', -⟩ := transfer.srcTok
    obtain ⟨u, u', hu, hu', -⟩ := transfer.dstTok
    have hs : (w S.key).owner = env.tokenProgram := by rw [← w1_frame _ neS]; exact ht.1
    have hv : (w V.key).owner = env.tokenProgram := by rw [← w1_frame _ neV]; exact hu.1
    refine ⟨pools fun k p p' h1 h2 => ?_, fun k y hy => ?_⟩
    · by_cases e1 : k = P.key
      · subst e1
        rw [PoolAt.unique h2 pool']
        have g := hf.pools _ _ pool
        rw [u64_eq] at endBound bound
        exact ⟨g.1, g.2, endBound, bound, g.5, g.6, g.7, g.8⟩
      · exact samePool k p' h2 (frame k e1 (tok _ _ h1.1 hs) (tok _ _ h1.1 hv))
    · refine sameMining k y hy (frame k (by rintro rfl; exact PoolAt.not_mining pool' hy) ?_ ?_)
      · rintro rfl; exact env.program_ne_token (hy.1.symm.trans ht'.1)
      · rintro rfl; exact env.program_ne_token (hy.1.symm.trans hu'.1)
  | @close M O G A P rest p m m1 accs_eq signedO signedA good pool auth mining init miningOk owner refreshed sfo paid target
      closed credited frame ne neG =>
    refine ⟨pools fun k p p' h1 h2 => ?_, fun k y hy => ?_⟩
    · exact samePool k p' h2 (frame k (by rintro rfl; exact PoolAt.not_mining h1 mining) (sys _ _ h1.1 target))
    · by_cases e1 : k = M.key
      · subst e1; have := hy.2; rw [closed] at this; cases this
      · refine sameMining k y hy (frame k e1 ?_)
        rintro rfl
        have := hy.1; rw [credited] at this
        exact env.program_ne_system (this.symm.trans target)
  | @initPool f d P T V Y A R K S rest bump accs_eq signedY signedA owned len fresh notPda vault pool' vaultBefore vault'
      payer payer' frame =>
    refine ⟨pools fun k p p' h1 h2 => ?_, fun k y hy => ?_⟩
    · refine samePool k p' h2 (frame k ?_ (sys _ _ h1.1 vaultBefore.2.2) (sys _ _ h1.1 payer.2.1))
      rintro rfl
      rcases fresh with h3 | ⟨m, h3, -⟩
      · rw [h1.2] at h3; cases h3
      · rw [h1.2] at h3; cases h3
    · refine sameMining k y hy (frame k ?_ ?_ ?_)
      · rintro rfl; have := hy.2; rw [pool'] at this; cases this
      · rintro rfl; have := hy.1; rw [vault'] at this; exact env.program_ne_token this.symm
      · rintro rfl; have := hy.1; rw [payer'] at this; exact env.program_ne_system (this.symm.trans payer.2.1)
  | @initMining o P M Y S rest bump accs_eq signedY owned addr before mining' payer payer' frame ne neP =>
    refine ⟨pools fun k p p' h1 h2 => ?_, fun k y hy => ?_⟩
    · exact samePool k p' h2 (frame k (sys _ _ h1.1 before.2.2) (sys _ _ h1.1 payer.2.1))
    · by_cases e1 : k = M.key
      · subst e1
        have := hy.2; rw [mining'] at this; cases this
        exact Mining.init_fits ..
      · refine sameMining k y hy (frame k e1 ?_)
        rintro rfl; have := hy.1; rw [payer'] at this; exact env.program_ne_system (this.symm.trans payer.2.1)

/-- One event keeps everything in range. -/
theorem apply_fits {s : Chain} (hw : Wf env s.now s.world) (hf : AllFit env s.world) {e : Event} (hv : e.Valid env s)
    (hc : CleanEvent env s e) (hn : s.now < 2 ^ 64) : AllFit env (s.apply env e).world := by
  cases e with
  | ix accs i =>
    cases hx : exec env s.now s.world accs i with
    | error e => rw [apply_ix_error hx]; exact hf
    | ok r =>
      obtain ⟨w', ret⟩ := r
      rw [apply_ix_ok hx]
      exact (step_of_exec hw hv hc hx).fits hn hw hf
  | tick d => exact hf
  | gc j =>
    have e0 : (s.apply env (.gc j)).world j = _ := world_set_same _ _ _
    have e1 : ∀ k, k ≠ j → (s.apply env (.gc j)).world k = s.world k := fun k hk => world_set_ne _ _ hk
    refine ⟨fun k p hp => ?_, fun k m hm => ?_⟩
    · by_cases hk : k = j
      · subst hk; have := hp.2; rw [e0] at this; cases this
      · exact hf.pools k p ((poolAt_congr (e1 k hk)).mp hp)
    · by_cases hk : k = j
      · subst hk; have := hm.2; rw [e0] at this; cases this
      · exact hf.minings k m ((miningAt_congr (e1 k hk)).mp hm)
  | ext w' =>
    refine ⟨fun k p hp => ?_, fun k m hm => ?_⟩
    · by_cases ho : (s.world k).owner = env.programId
      · obtain ⟨e1, -, e3, e4⟩ := hv.program_owned k ho
        exact hf.pools k p ⟨ho, e3 ▸ hp.2⟩
      · have h1 := (hv.new_zero k ho hp.1).1
        have h5 : (w' k).content = _ := hp.2
        rw [h1] at h5; cases h5
    · by_cases ho : (s.world k).owner = env.programId
      · obtain ⟨e1, -, e3, e4⟩ := hv.program_owned k ho
        exact hf.minings k m ⟨ho, e3 ▸ hm.2⟩
      · have h1 := (hv.new_zero k ho hm.1).1
        have h5 : (w' k).content = _ := hm.2
        rw [h1] at h5; cases h5

end Verif
