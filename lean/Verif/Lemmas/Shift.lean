import Verif.Spec.Shift
import Verif.Lemmas.Local
import Verif.Lemmas.Rename
/-!
The arithmetic of minings and pools does not depend on the date (C91).
-/

namespace Verif

open Spec

variable (n : Nat)

theorem bod_later (t : Nat) : bod (t + 86400 * n) = bod t + 86400 * n := by
  unfold bod DAY
  omega

theorem endTimestamp_later (l : LockupPeriod) (t : Nat) (h : t + 86400 * n + 366 * 86400 < 2 ^ 64) :
    l.endTimestamp (t + 86400 * n) = (l.endTimestamp t).map (· + 86400 * n) := by
  have hb : bod t ≤ t := Nat.sub_le _ _
  have key : ∀ d, d ≤ 366 * 86400 → rawAdd64 (bod t + 86400 * n) d = (rawAdd64 (bod t) d).map (· + 86400 * n) := by
    intro d hd
    unfold rawAdd64
    rw [if_pos (by unfold U64; omega), if_pos (by unfold U64; omega)]
    simp only [Except.map]
    congr 1
    omega
  cases l with
  | none => rfl
  | _ => exact (by rw [← bod_later]; rfl : _ = _).trans (key _ (by decide))

/-! ### Tables -/

theorem laterTable_nil : laterTable n [] = [] := rfl

theorem laterTable_cons (k v : Nat) (l : SMap) : laterTable n ((k, v) :: l) = (k + 86400 * n, v) :: laterTable n l := rfl

theorem laterTable_length (l : SMap) : (laterTable n l).length = l.length := by simp [laterTable]

theorem laterTable_reverse (l : SMap) : laterTable n l.reverse = (laterTable n l).reverse := by simp [laterTable]

theorem get_later (l : SMap) (k : Nat) : (laterTable n l).get (k + 86400 * n) = l.get k := by
  induction l with
  | nil => rfl
  | cons e l ih =>
    obtain ⟨a, b⟩ := e
    rw [laterTable_cons]
    simp only [SMap.get, ih, Nat.add_right_cancel_iff]

theorem contains_later (l : SMap) (k : Nat) : (laterTable n l).contains (k + 86400 * n) = l.contains k := by
  simp only [SMap.contains, get_later]

theorem put_later (l : SMap) (k v : Nat) : (laterTable n l).put (k + 86400 * n) v = laterTable n (l.put k v) := by
  induction l with
  | nil => rfl
  | cons e l ih =>
    obtain ⟨a, b⟩ := e
    rw [laterTable_cons]
    simp only [SMap.put, Nat.add_right_cancel_iff, Nat.add_lt_add_iff_right]
    split
    · rfl
    · split
      · rfl
      · rw [ih, laterTable_cons]

theorem insert_later (c : Nat) (l : SMap) (k v : Nat) :
    (laterTable n l).insert c (k + 86400 * n) v = laterTable n (l.insert c k v) := by
  simp only [SMap.insert, contains_later, laterTable_length]
  split
  · exact put_later n l k v
  · rfl

theorem set_later (l : SMap) (k v : Nat) : (laterTable n l).set (k + 86400 * n) v = laterTable n (l.set k v) := by
  induction l with
  | nil => rfl
  | cons e l ih =>
    obtain ⟨a, b⟩ := e
    rw [laterTable_cons]
    simp only [SMap.set, Nat.add_right_cancel_iff]
    split
    · rfl
    · rw [ih, laterTable_cons]

theorem erase_later (l : SMap) (k : Nat) : (laterTable n l).erase (k + 86400 * n) = laterTable n (l.erase k) := by
  induction l with
  | nil => rfl
  | cons e l ih =>
    obtain ⟨a, b⟩ := e
    rw [laterTable_cons]
    simp only [SMap.erase, Nat.add_right_cancel_iff]
    split
    · rfl
    · rw [ih, laterTable_cons]

theorem eraseAll_later (ks : List Nat) (l : SMap) :
    (ks.map (· + 86400 * n)).foldl SMap.erase (laterTable n l) = laterTable n (ks.foldl SMap.erase l) := by
  induction ks generalizing l with
  | nil => rfl
  | cons k ks ih => simp only [List.map_cons, List.foldl_cons, erase_later, ih]

theorem findMaxLt_later (l : SMap) (k : Nat) : (laterTable n l).findMaxLt (k + 86400 * n) = l.findMaxLt k := by
  induction l with
  | nil => rfl
  | cons e l ih =>
    obtain ⟨a, b⟩ := e
    rw [laterTable_cons]
    simp only [SMap.findMaxLt, ih, Nat.add_lt_add_iff_right]

theorem laterTable_inj {a b : SMap} (h : laterTable n a = laterTable n b) : a = b := by
  induction a generalizing b with
  | nil => cases b with
    | nil => rfl
    | cons y b => cases h
  | cons x a ih => cases b with
    | nil => cases h
    | cons y b =>
      obtain ⟨x1, x2⟩ := x
      obtain ⟨y1, y2⟩ := y
      simp only [laterTable_cons, List.cons.injEq, Prod.mk.injEq, Nat.add_right_cancel_iff] at h
      rw [h.1.1, h.1.2, ih h.2]

theorem laterTable_eq {a b : SMap} : laterTable n a = laterTable n b ↔ a = b := ⟨laterTable_inj n, fun h => by rw [h]⟩

theorem laterDate_eq {a b : Nat} : laterDate n a = laterDate n b ↔ a = b := by
  unfold laterDate
  split <;> split <;> omega

theorem laterMining_eq {a b : Mining} : laterMining n a = laterMining n b ↔ a = b := by
  obtain ⟨⟩ := a
  obtain ⟨⟩ := b
  simp [laterMining, laterTable_eq]

theorem laterPool_eq {a b : Pool} : laterPool n a = laterPool n b ↔ a = b := by
  obtain ⟨⟩ := a
  obtain ⟨⟩ := b
  simp [laterPool, laterTable_eq, laterDate_eq]

theorem laterMining_zero : laterMining n Mining.zero = Mining.zero := rfl

theorem laterPool_zero : laterPool n Pool.zero = Pool.zero := by
  simp [laterPool, Pool.zero, laterTable, laterDate]

theorem laterContent_eq {a b : Content} : laterContent n a = laterContent n b ↔ a = b := by
  cases a <;> cases b <;> simp [laterContent, laterMining_eq, laterPool_eq]

theorem laterAccount_eq {a b : Account} : laterAccount n a = laterAccount n b ↔ a = b := by
  obtain ⟨⟩ := a
  obtain ⟨⟩ := b
  simp [laterAccount, laterContent_eq]

theorem laterContent_zero (c : Content) : laterContent n c = .zero ↔ c = .zero := by cases c <;> simp [laterContent]

theorem laterContent_mint (c : Content) : laterContent n c = .mint ↔ c = .mint := by cases c <;> simp [laterContent]

theorem allZero_later (c : Content) : (laterContent n c).allZero = c.allZero := by
  cases c with
  | mining m =>
    have : laterMining n m = Mining.zero ↔ m = Mining.zero := by conv => lhs; rw [← laterMining_zero n, laterMining_eq]
    simp only [Content.allZero, laterContent, this]
  | pool p =>
    have : laterPool n p = Pool.zero ↔ p = Pool.zero := by conv => lhs; rw [← laterPool_zero n, laterPool_eq]
    simp only [Content.allZero, laterContent, this]
  | _ => rfl

/-! ### Minings and pools -/

theorem updateIndex_later (c : SMap) (t s u i : Nat) :
    Mining.updateIndex (laterTable n c) (t + 86400 * n) s u i = Mining.updateIndex c t s u i := by
  unfold Mining.updateIndex
  rw [findMaxLt_later]

/-- The state of the loop, later. -/
def laterConsume (s : Mining.Consume) : Mining.Consume := { s with processed := s.processed.map (· + 86400 * n) }

theorem mining_consumeLoop_later (c : SMap) (t : Nat) (l : SMap) (s : Mining.Consume) :
    Mining.consumeLoop (laterTable n c) (t + 86400 * n) (laterTable n l) (laterConsume n s) =
      (Mining.consumeLoop c t l s).map (laterConsume n) := by
  induction l generalizing s with
  | nil => rfl
  | cons e l ih =>
    obtain ⟨a, b⟩ := e
    rw [laterTable_cons]
    unfold Mining.consumeLoop
    simp only [gt_iff_lt, Nat.add_lt_add_iff_right, updateIndex_later]
    split
    · rfl
    · refine bind_map fun x _ => bind_map fun y _ => ?_
      rw [← ih]
      simp [laterConsume]

theorem refreshRewards_later (t : Nat) (c : SMap) (m : Mining) :
    (laterMining n m).refreshRewards (t + 86400 * n) (laterTable n c) = (m.refreshRewards t c).map (laterMining n) := by
  unfold Mining.refreshRewards
  refine bind_map fun s _ => bind_map2 (k := fun (x : Mining × Nat) => (laterMining n x.1, x.2)) ?_ fun ⟨m', s'⟩ _ => ?_
  · unfold Mining.consumeOldModifiers
    rw [bod_later]
    refine bind_map2 (mining_consumeLoop_later n c (bod t) m.diffs ⟨s, m.unclaimed, m.index, []⟩) fun x _ => ?_
    simp only [pure, Except.pure, Except.map, laterMining, laterConsume, eraseAll_later]
  · dsimp only
    rw [updateIndex_later]
    exact bind_map fun _ _ => bind_map fun _ _ => rfl

theorem decreaseLoop_later (k : Nat) (l : SMap) :
    Mining.decreaseLoop k (laterTable n l) = laterTable n (Mining.decreaseLoop k l) := by
  induction l generalizing k with
  | nil => rfl
  | cons e l ih =>
    obtain ⟨a, b⟩ := e
    rw [laterTable_cons]
    simp only [Mining.decreaseLoop]
    split
    · rfl
    · rw [ih, laterTable_cons]

theorem decreaseRewards_later (m : Mining) (k : Nat) :
    (laterMining n m).decreaseRewards k = (m.decreaseRewards k).map (laterMining n) := by
  unfold Mining.decreaseRewards
  split
  · rfl
  · refine bind_map fun _ _ => bind_map fun _ _ => ?_
    simp only [pure, Except.pure, Except.map, laterMining, ← laterTable_reverse, decreaseLoop_later]

theorem pool_consumeLoop_later (t : Nat) (l : SMap) (s : Nat) (ks : List Nat) :
    Pool.consumeLoop (t + 86400 * n) (laterTable n l) s (ks.map (· + 86400 * n)) =
      (Pool.consumeLoop t l s ks).map fun x => (x.1, x.2.map (· + 86400 * n)) := by
  induction l generalizing s ks with
  | nil => rfl
  | cons e l ih =>
    obtain ⟨a, b⟩ := e
    rw [laterTable_cons]
    unfold Pool.consumeLoop
    simp only [gt_iff_lt, Nat.add_lt_add_iff_right]
    split
    · rfl
    · refine bind_map fun y _ => ?_
      rw [← ih]
      simp

theorem pool_consume_later (p : Pool) (t : Nat) :
    (laterPool n p).consumeOldModifiers (t + 86400 * n) = (p.consumeOldModifiers t).map (laterPool n) := by
  unfold Pool.consumeOldModifiers
  refine bind_map2 (pool_consumeLoop_later n t p.diffs p.totalShare []) fun x _ => ?_
  simp only [pure, Except.pure, Except.map, laterPool, eraseAll_later]

theorem rewardsToDistribute_later (t : Nat) (p : Pool) :
    (laterPool n p).rewardsToDistribute (t + 86400 * n) = p.rewardsToDistribute t := by
  have h : (laterPool n p).distributionEndsAt - (t + 86400 * n) = p.distributionEndsAt - t := by
    simp only [laterPool, laterDate]
    split <;> omega
  unfold Pool.rewardsToDistribute
  rw [h]
  rfl

theorem distribute_later (c : Caps) (t : Nat) (p : Pool) (k : Nat) :
    (laterPool n p).distribute c (t + 86400 * n) k = (p.distribute c t k).map (laterPool n) := by
  unfold Pool.distribute
  rw [bod_later]
  refine bind_map fun _ _ => bind_map2 (pool_consume_later n p _) fun q _ => ?_
  have e : (laterPool n q).cumulative = laterTable n q.cumulative := rfl
  rw [e, contains_later]
  split
  · rfl
  · refine bind_map2 (k := laterPool n) ?_ fun _ _ => bind_map fun _ _ => rfl
    unfold Pool.updateIndex
    refine bind_map fun _ _ => bind_map fun _ _ => bind_map fun _ _ => ?_
    rw [e, insert_later]
    rfl

theorem delegateSub_later (t k : Nat) (p : Pool) (m : Mining) :
    Pool.delegateSub (t + 86400 * n) k (laterPool n p) (laterMining n m) =
      (Pool.delegateSub t k p m).map fun x => (laterPool n x.1, laterMining n x.2) := by
  unfold Pool.delegateSub
  exact bind_map fun a _ => bind_map fun _ _ =>
    bind_map2 (refreshRewards_later n t p.cumulative { m with stakeFromOthers := a }) fun _ _ => rfl

theorem delegateAdd_later (t k : Nat) (p : Pool) (m : Mining) :
    Pool.delegateAdd (t + 86400 * n) k (laterPool n p) (laterMining n m) =
      (Pool.delegateAdd t k p m).map fun x => (laterPool n x.1, laterMining n x.2) := by
  unfold Pool.delegateAdd
  exact bind_map fun a _ => bind_map fun _ _ =>
    bind_map2 (refreshRewards_later n t p.cumulative { m with stakeFromOthers := a }) fun _ _ => rfl

theorem withDelegate_later {f g : Pool → Mining → Res (Pool × Mining)}
    (hf : ∀ p m, f (laterPool n p) (laterMining n m) = (g p m).map fun x => (laterPool n x.1, laterMining n x.2))
    (p : Pool) (d : Option Mining) :
    (laterPool n p).withDelegate (d.map (laterMining n)) f =
      (p.withDelegate d g).map fun x => (laterPool n x.1, x.2.map (laterMining n)) := by
  cases d with
  | none => rfl
  | some m => exact bind_map2 (hf p m) fun _ _ => rfl

theorem changeDelegate_later (t : Nat) (p : Pool) (m : Mining) (a b : Option Mining) (k : Nat) :
    (laterPool n p).changeDelegate (t + 86400 * n) (laterMining n m) (a.map (laterMining n)) (b.map (laterMining n)) k =
      (p.changeDelegate t m a b k).map fun x =>
        (laterPool n x.1, laterMining n x.2.1, x.2.2.1.map (laterMining n), x.2.2.2.map (laterMining n)) := by
  unfold Pool.changeDelegate
  exact bind_map2 (refreshRewards_later n t p.cumulative m) fun _ _ =>
    bind_map2 (withDelegate_later n (delegateSub_later n t k) p b) fun x _ =>
    bind_map2 (withDelegate_later n (delegateAdd_later n t k) x.1 a) fun _ _ => rfl

theorem deposit_later (c : Caps) (t : Nat) (p : Pool) (m : Mining) (k : Nat) (l : LockupPeriod) (d : Option Mining)
    (ht : t + 86400 * n + 366 * 86400 < 2 ^ 64) :
    (laterPool n p).deposit c (t + 86400 * n) (laterMining n m) k l (d.map (laterMining n)) =
      (p.deposit c t m k l d).map fun x => (laterPool n x.1, laterMining n x.2.1, x.2.2.map (laterMining n)) := by
  unfold Pool.deposit
  have key : ∀ (q : Pool) (x : Mining),
      (do let (q, d) ← (laterPool n q).withDelegate (d.map (laterMining n)) (Pool.delegateAdd (t + 86400 * n) k)
          pure (q, laterMining n x, d)) =
      (do let (q, d) ← q.withDelegate d (Pool.delegateAdd t k)
          pure (q, x, d) : Res (Pool × Mining × Option Mining)).map
        fun x => (laterPool n x.1, laterMining n x.2.1, x.2.2.map (laterMining n)) :=
    fun q x => bind_map2 (withDelegate_later n (delegateAdd_later n t k) q d) fun _ _ => rfl
  refine bind_map2 (refreshRewards_later n t p.cumulative m) fun m' _ => bind_map fun _ _ => bind_map fun _ _ =>
    bind_map fun df _ => bind_map fun tot _ => bind_map fun sh _ => bind_map2 (endTimestamp_later n l t ht) fun ex _ => ?_
  have e : (laterMining n m').diffs = laterTable n m'.diffs := rfl
  have e' : (laterPool n p).diffs = laterTable n p.diffs := rfl
  simp only [e, e', get_later]
  refine bind_map fun md _ => ?_
  simp only [set_later, insert_later]
  split
  · exact bind_map fun v _ => key { p with totalShare := tot, diffs := p.diffs.insert c.pool ex md }
      { m' with share := sh, diffs := m'.diffs.set ex v }
  · exact key { p with totalShare := tot, diffs := p.diffs.insert c.pool ex md }
      { m' with share := sh, diffs := m'.diffs.insert c.mining ex df }

theorem withdraw_later (t : Nat) (p : Pool) (m : Mining) (k : Nat) (d : Option Mining) :
    (laterPool n p).withdraw (t + 86400 * n) (laterMining n m) k (d.map (laterMining n)) =
      (p.withdraw t m k d).map fun x => (laterPool n x.1, laterMining n x.2.1, x.2.2.map (laterMining n)) := by
  unfold Pool.withdraw
  rw [bod_later]
  exact bind_map2 (refreshRewards_later n t p.cumulative m) fun _ _ => bind_map fun _ _ => bind_map fun _ _ =>
    bind_map2 (pool_consume_later n { p with totalShare := _ } _) fun q _ =>
    bind_map2 (withDelegate_later n (delegateSub_later n t k) q d) fun _ _ => rfl

theorem modifyDiffs_later (l : SMap) (t k : Nat) :
    Pool.modifyDiffs (laterTable n l) (t + 86400 * n) k = (Pool.modifyDiffs l t k).map (laterTable n) := by
  unfold Pool.modifyDiffs
  rw [get_later]
  split
  · rfl
  · refine bind_map fun _ _ => ?_
    rw [set_later]
    rfl

theorem slash_later (t : Nat) (p : Pool) (m : Mining) (a b : Nat) (e : Option Nat) :
    (laterPool n p).slash (t + 86400 * n) (laterMining n m) a b (e.map (· + 86400 * n)) =
      (p.slash t m a b e).map fun x => (laterPool n x.1, laterMining n x.2) := by
  unfold Pool.slash
  refine bind_map2 (withdraw_later n t p m b none) fun x _ => ?_
  cases e with
  | none => rfl
  | some ts =>
    simp only [Option.map_some, bod_later]
    exact bind_map fun _ _ => bind_map2 (modifyDiffs_later n x.2.1.diffs _ _) fun _ _ =>
      bind_map2 (modifyDiffs_later n x.1.diffs _ _) fun _ _ => rfl

theorem extend_later (c : Caps) (t : Nat) (p : Pool) (m : Mining) (ol nl : LockupPeriod) (ts b a : Nat) (d : Option Mining)
    (ht : t + 86400 * n + 366 * 86400 < 2 ^ 64) (hs : ts + 86400 * n + 366 * 86400 < 2 ^ 64) :
    (laterPool n p).extend c (t + 86400 * n) (laterMining n m) ol nl (ts + 86400 * n) b a (d.map (laterMining n)) =
      (p.extend c t m ol nl ts b a d).map fun x => (laterPool n x.1, laterMining n x.2.1, x.2.2.map (laterMining n)) := by
  have key : ∀ (q : Pool) (x : Mining),
      (do let amountToRestake ← safeAdd64 b a
          let (q, d) ← (laterPool n q).withDelegate (d.map (laterMining n)) (Pool.delegateSub (t + 86400 * n) b)
          q.deposit c (t + 86400 * n) (laterMining n x) amountToRestake nl d) =
      (do let amountToRestake ← safeAdd64 b a
          let (q, d) ← q.withDelegate d (Pool.delegateSub t b)
          q.deposit c t x amountToRestake nl d).map
        fun (x : Pool × Mining × Option Mining) => (laterPool n x.1, laterMining n x.2.1, x.2.2.map (laterMining n)) := by
    intro q x
    exact bind_map fun _ _ => bind_map2 (withDelegate_later n (delegateSub_later n t b) q d) fun y _ =>
      deposit_later n c t y.1 x _ nl y.2 ht
  unfold Pool.extend
  refine bind_map2 (refreshRewards_later n t p.cumulative m) fun m' _ => ?_
  dsimp only
  split
  · refine bind_map2 (k := id) (x := pure 0) (y := pure 0) rfl fun old ho => bind_map fun _ _ => ?_
    have : old = 0 := by cases ho; rfl
    subst this
    simp only [id, Nat.not_lt_zero, if_false]
    exact bind_map fun sh _ => bind_map fun tot _ => key { p with totalShare := tot } { m' with share := sh }
  · refine bind_map2 (endTimestamp_later n ol ts hs) fun old _ => bind_map fun _ _ => ?_
    simp only [Nat.add_lt_add_iff_right]
    split
    · exact bind_map fun _ _ => bind_map fun _ _ => bind_map2 (modifyDiffs_later n m'.diffs _ _) fun md _ =>
        bind_map fun sh _ => bind_map fun tot _ =>
        key { p with totalShare := tot } { m' with diffs := md, share := sh }
    · exact bind_map fun sh _ => bind_map fun tot _ => key { p with totalShare := tot } { m' with share := sh }

end Verif
