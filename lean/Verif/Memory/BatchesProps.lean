import Verif.Memory.Batches

/-!
# Properties of memory-budgeted batches (C31)

Specification: `bytesOn c a w` is the number of bytes array `a` takes on worker `w` (one shard for every
shard of the counted replicas that lives there), `total c b w` the bytes of a whole batch.
-/

namespace Verif.Memory.Batches

open Verif

/-- The shard counts for the estimate and lives on worker `w`. -/
def countsOn (c : Cfg) (w : Nat) (s : Shard) : Bool :=
  (match c.dispatcher, c.replicaId with
   | true, _ => true
   | false, none => true
   | false, some r => s.replica == r) && c.worker s.device == w

/-- Bytes of the array on worker `w`. -/
def bytesOn (c : Cfg) (a : Arr) (w : Nat) : Nat := (a.shards.filter (countsOn c w)).length * a.shardBytes

/-- Bytes of a batch on worker `w`. -/
def total {β} (c : Cfg) (b : List (Arr × β)) (w : Nat) : Nat := (b.map fun p => bytesOn c p.1 w).sum

/-- The array has a counted shard on worker `w`. -/
def touches (c : Cfg) (a : Arr) (w : Nat) : Prop := ∃ s ∈ a.shards, countsOn c w s = true

/-- `w` is a worker of some device. -/
def isWorker (c : Cfg) (w : Nat) : Prop := ∃ d ∈ c.devices, c.worker d = w

/-! ### Lemmas -/

theorem skip_iff (c : Cfg) (s : Shard) :
    (c.replica.isSome && c.replica != some s.replica) = !(countsOn c (c.worker s.device) s) := by
  unfold countsOn Cfg.replica
  cases c.dispatcher <;> cases c.replicaId <;> simp only [if_true, Bool.false_eq_true, if_false] <;> try simp
  next r =>
    by_cases h : r = s.replica
    · simp [h]
    · have h' : ¬ s.replica = r := fun e => h e.symm
      have e1 : (some r != some s.replica) = true := by simpa using h
      have e2 : (s.replica == r) = false := by simpa using h'
      rw [e1, e2]; rfl

theorem countsOn_worker {c : Cfg} {w : Nat} {s : Shard} (h : countsOn c w s = true) : c.worker s.device = w := by
  unfold countsOn at h
  simp only [Bool.and_eq_true, beq_iff_eq] at h
  exact h.2

theorem countsOn_of_ne {c : Cfg} {w : Nat} {s : Shard} (h : c.worker s.device ≠ w) : countsOn c w s = false := by
  cases hc : countsOn c w s with
  | false => rfl
  | true => exact absurd (countsOn_worker hc) h

theorem estimateFrom_spec (c : Cfg) (size : Nat) : ∀ (l : List Shard) (u : Usage) (w : Nat),
    (Assoc.get (estimateFrom c size l u) w).getD 0
      = (Assoc.get u w).getD 0 + (l.filter (countsOn c w)).length * size ∧
    (w ∈ Assoc.keys (estimateFrom c size l u) ↔ w ∈ Assoc.keys u ∨ ∃ s ∈ l, countsOn c w s = true)
  | [], u, w => by simp [estimateFrom]
  | s :: l, u, w => by
    rw [estimateFrom, skip_iff]
    cases hc : countsOn c (c.worker s.device) s with
    | false =>
      have hw : countsOn c w s = false := by
        by_cases e : c.worker s.device = w
        · rw [← e]; exact hc
        · exact countsOn_of_ne e
      have ih := estimateFrom_spec c size l u w
      simp only [Bool.not_false, if_true, ih, List.filter_cons, hw, Bool.false_eq_true, if_false, true_and,
        List.mem_cons, exists_eq_or_imp, false_or]
    | true =>
      have ih := estimateFrom_spec c size l
        (Assoc.put u (c.worker s.device) ((Assoc.get u (c.worker s.device)).getD 0 + size)) w
      simp only [Bool.not_true, Bool.false_eq_true, if_false, ih, List.filter_cons, List.mem_cons,
        exists_eq_or_imp, Assoc.mem_keys_put, Assoc.get_put]
      by_cases e : c.worker s.device = w
      · subst e
        simp only [hc, if_true, Option.getD_some, List.length_cons, Nat.succ_mul, true_or, or_true, and_true]
        omega
      · have e' : ¬ w = c.worker s.device := fun h => e h.symm
        simp only [countsOn_of_ne e, e', if_false, Bool.false_eq_true, false_or, true_and]

theorem nodup_estimateFrom (c : Cfg) (size : Nat) : ∀ (l : List Shard) (u : Usage), (Assoc.keys u).Nodup →
    (Assoc.keys (estimateFrom c size l u)).Nodup
  | [], u, h => h
  | s :: l, u, h => by
    rw [estimateFrom]
    split
    · exact nodup_estimateFrom c size l u h
    · exact nodup_estimateFrom c size l _ (Assoc.nodup_put _ _ _ h)

theorem get_estimate (c : Cfg) (a : Arr) (w : Nat) : (Assoc.get (estimate c a) w).getD 0 = bytesOn c a w := by
  have := (estimateFrom_spec c a.shardBytes a.shards [] w).1
  simpa [estimate, bytesOn] using this

theorem keys_estimate (c : Cfg) (a : Arr) (w : Nat) : w ∈ Assoc.keys (estimate c a) ↔ touches c a w := by
  have := (estimateFrom_spec c a.shardBytes a.shards [] w).2
  simpa [estimate, touches, Assoc.keys] using this

/-- The usage dictionary records the batch on the workers it tracks. -/
def Tracks {β} (c : Cfg) (u : Usage) (cur : List (Arr × β)) : Prop := ∀ p ∈ u, p.2 = total c cur p.1

theorem tracks_estimate {β} (c : Cfg) (p : Arr × β) : Tracks c (estimate c p.1) [p] := by
  intro q hq
  have h1 : Assoc.get (estimate c p.1) q.1 = some q.2 :=
    Assoc.get_of_mem _ (nodup_estimateFrom c _ _ [] (by simp [Assoc.keys])) _ _ hq
  have h2 := get_estimate c p.1 q.1
  rw [h1] at h2
  simpa [total] using h2

theorem tracks_increment {β} {c : Cfg} {u : Usage} {cur : List (Arr × β)} (h : Tracks c u cur) (p : Arr × β) :
    Tracks c (increment c p.1 u) (cur ++ [p]) := by
  intro q hq
  obtain ⟨r, hr, rfl⟩ := List.mem_map.mp hq
  have := h r hr
  simp [total, get_estimate] at this ⊢
  omega

theorem keys_increment (c : Cfg) (a : Arr) (u : Usage) : Assoc.keys (increment c a u) = Assoc.keys u := by
  simp [Assoc.keys, increment, List.map_map, Function.comp_def]

theorem tracks_no {β} (c : Cfg) : Tracks c (noUsage c) ([] : List (Arr × β)) := by
  intro q hq
  obtain ⟨r, hr, rfl⟩ := List.mem_map.mp hq
  simp [total]

theorem keys_no (c : Cfg) (w : Nat) : w ∈ Assoc.keys (noUsage c) ↔ isWorker c w := by
  simp [Assoc.keys, noUsage, List.map_map, Function.comp_def, isWorker]

theorem tracks_restart {β} (c : Cfg) (p : Arr × β) : Tracks c (increment c p.1 (noUsage c)) [p] :=
  tracks_increment (cur := []) (tracks_no c) p

theorem underBudget_iff (budget : Int) (u : Usage) :
    underBudget budget u = true ↔ ∀ p ∈ u, (p.2 : Int) < budget := by
  simp [underBudget]

theorem loop_flatten {β} (c : Cfg) (budget : Int) : ∀ (rest cur : List (Arr × β)) (u : Usage),
    (loop c budget cur u rest).flatten = cur ++ rest
  | [], cur, u => by simp [loop]
  | p :: rest, cur, u => by
    rw [loop]
    split
    · rw [loop_flatten c budget rest]; simp
    · rw [List.flatten_cons, loop_flatten c budget rest]; simp

theorem loop_nonempty {β} (c : Cfg) (budget : Int) : ∀ (rest cur : List (Arr × β)) (u : Usage), cur ≠ [] →
    ∀ b ∈ loop c budget cur u rest, b ≠ []
  | [], cur, u, h, b, hb => by
    simp [loop] at hb; subst hb; exact h
  | p :: rest, cur, u, h, b, hb => by
    rw [loop] at hb
    split at hb
    · exact loop_nonempty c budget rest _ _ (by simp) b hb
    · rcases List.mem_cons.mp hb with rfl | hb
      · exact h
      · exact loop_nonempty c budget rest _ _ (by simp) b hb

/-- The batch is a single array or fits, on the given workers. -/
def Fits {β} (c : Cfg) (budget : Int) (ws : Nat → Prop) (b : List (Arr × β)) : Prop :=
  b.length ≤ 1 ∨ ∀ w, ws w → (total c b w : Int) < budget

theorem loop_fits {β} (c : Cfg) (budget : Int) : ∀ (rest cur : List (Arr × β)) (u : Usage),
    Tracks c u cur → Fits c budget (· ∈ Assoc.keys u) cur →
    ∃ b bs, loop c budget cur u rest = b :: bs ∧ Fits c budget (· ∈ Assoc.keys u) b ∧
      (∃ x, b = cur ++ x) ∧ ∀ b' ∈ bs, Fits c budget (isWorker c) b'
  | [], cur, u, ht, hf => ⟨cur, [], rfl, hf, ⟨[], by simp⟩, by simp⟩
  | p :: rest, cur, u, ht, hf => by
    rw [loop]
    have ht' := tracks_increment ht p
    split
    · next hu =>
      have hf' : Fits c budget (· ∈ Assoc.keys (increment c p.1 u)) (cur ++ [p]) := by
        right
        intro w hw
        obtain ⟨v, hv⟩ := (Assoc.mem_keys_iff _ _).mp hw
        have hm := Assoc.mem_of_get _ _ _ hv
        have h1 := ht' _ hm
        have h2 := (underBudget_iff _ _).mp hu _ hm
        simp only at h1 h2
        rw [h1] at h2
        exact h2
      obtain ⟨b, bs, e, f, ⟨x, hx⟩, g⟩ := loop_fits c budget rest _ _ ht' hf'
      rw [keys_increment] at f
      exact ⟨b, bs, e, f, ⟨p :: x, by simp [hx]⟩, g⟩
    · obtain ⟨b, bs, e, f, -, g⟩ := loop_fits c budget rest [p] (increment c p.1 (noUsage c)) (tracks_restart c p)
        (.inl (by simp))
      refine ⟨cur, _, rfl, hf, ⟨[], by simp⟩, ?_⟩
      intro b' hb'
      rw [e] at hb'
      rcases List.mem_cons.mp hb' with rfl | hb'
      · rcases f with f | f
        · exact .inl f
        · right
          intro w hw
          refine f w ?_
          show w ∈ Assoc.keys _
          rw [keys_increment]; exact (keys_no c w).mpr hw
      · exact g b' hb'

/-! ### C31 -/

/-- C31: the batches, one after the other, are the input, in order: nothing is lost, repeated or reordered. -/
theorem C31_partition {β} (c : Cfg) (budget : Int) (params : List (Arr × β)) (bs)
    (h : batches c budget params = some bs) : bs.flatten = params := by
  cases params with
  | nil => cases h
  | cons p rest => cases h; simp [loop_flatten]

/-- C31: no batch is empty. -/
theorem C31_nonempty {β} (c : Cfg) (budget : Int) (params : List (Arr × β)) (bs)
    (h : batches c budget params = some bs) : ∀ b ∈ bs, b ≠ [] := by
  cases params with
  | nil => cases h
  | cons p rest => cases h; exact loop_nonempty c budget rest _ _ (by simp)

/-- C31: it fails only for an empty input. -/
theorem C31_total {β} (c : Cfg) (budget : Int) (params : List (Arr × β)) :
    batches c budget params = none ↔ params = [] := by
  cases params <;> simp [batches]

/-- C31, partial: every batch but the first is a single array or stays below the budget on every worker; the
first one is a single array or stays below the budget on every worker that its first array is on.
Missing: the other workers of the first batch, see `C31_first_batch_over_budget_fails`. -/
theorem C31_budget_partial {β} (c : Cfg) (budget : Int) (p : Arr × β) (rest : List (Arr × β)) :
    ∃ b bs, batches c budget (p :: rest) = some (b :: bs) ∧
      (b.length = 1 ∨ ∀ w, touches c p.1 w → (total c b w : Int) < budget) ∧
      ∀ b' ∈ bs, b'.length = 1 ∨ ∀ w, isWorker c w → (total c b' w : Int) < budget := by
  have hne : ∀ b bs, batches c budget (p :: rest) = some (b :: bs) → ∀ b' ∈ b :: bs, 0 < b'.length := by
    intro b bs h b' hb'
    exact List.length_pos_iff.mpr (C31_nonempty c budget _ _ h b' hb')
  obtain ⟨b, bs, e, f, -, g⟩ := loop_fits c budget rest [p] (estimate c p.1) (tracks_estimate c p) (.inl (by simp))
  have e' : batches c budget (p :: rest) = some (b :: bs) := by rw [batches, e]
  refine ⟨b, bs, e', ?_, ?_⟩
  · rcases f with f | f
    · left
      have := hne _ _ e' b (by simp)
      omega
    · exact .inr fun w hw => f w ((keys_estimate c p.1 w).mpr hw)
  · intro b' hb'
    rcases g b' hb' with f | f
    · left
      have := hne _ _ e' b' (by simp [hb'])
      omega
    · exact .inr f

/-- C31: when the first array has a shard on every worker (for instance when it is sharded over, or
replicated on, all devices and all replicas count), every batch is a single array or stays below the budget
on every worker. -/
theorem C31_budget_if_first_everywhere {β} (c : Cfg) (budget : Int) (p : Arr × β) (rest : List (Arr × β))
    (hfirst : ∀ w, isWorker c w → touches c p.1 w) (bs) (h : batches c budget (p :: rest) = some bs) :
    ∀ b ∈ bs, b.length = 1 ∨ ∀ w, isWorker c w → (total c b w : Int) < budget := by
  obtain ⟨b0, bs0, e, f, g⟩ := C31_budget_partial c budget p rest
  rw [h] at e; cases e
  intro b hb
  rcases List.mem_cons.mp hb with rfl | hb
  · rcases f with f | f
    · exact .inl f
    · exact .inr fun w hw => f w (hfirst w hw)
  · exact g b hb

theorem loop_greedy {β} (c : Cfg) (budget : Int) : ∀ (rest cur : List (Arr × β)) (u : Usage),
    Tracks c u cur → ∀ pre b p b' post, loop c budget cur u rest = pre ++ b :: (p :: b') :: post →
    ∃ w, budget ≤ total c (b ++ [p]) w
  | [], cur, u, ht, pre, b, p, b', post, h => by
    rw [loop] at h
    cases pre with
    | nil => simp at h
    | cons x pre => simp at h
  | q :: rest, cur, u, ht, pre, b, p, b', post, h => by
    rw [loop] at h
    have ht' := tracks_increment ht q
    split at h
    · exact loop_greedy c budget rest _ _ ht' pre b p b' post h
    · next hu =>
      cases pre with
      | nil =>
        simp only [List.nil_append, List.cons.injEq] at h
        obtain ⟨rfl, h⟩ := h
        have hp : p = q := by
          have h1 := loop_flatten c budget rest [q] (increment c q.1 (noUsage c))
          rw [h] at h1
          simp at h1
          exact h1.1
        subst hp
        rw [underBudget_iff] at hu
        simp only [Classical.not_forall, Int.not_lt] at hu
        obtain ⟨x, hx, hb⟩ := hu
        exact ⟨x.1, by rw [← ht' x hx]; exact hb⟩
      | cons x pre =>
        simp only [List.cons_append, List.cons.injEq] at h
        exact loop_greedy c budget rest _ _ (tracks_restart c q) pre b p b' post h.2

/-- C31: batches are not split needlessly: when a batch `b` is followed by another, the next array would have
brought some worker to the budget. -/
theorem C31_greedy {β} (c : Cfg) (budget : Int) (params : List (Arr × β)) (pre b p b' post)
    (h : batches c budget params = some (pre ++ b :: (p :: b') :: post)) :
    ∃ w, budget ≤ total c (b ++ [p]) w := by
  cases params with
  | nil => cases h
  | cons q rest =>
    simp only [batches, Option.some.injEq] at h
    exact loop_greedy c budget rest _ _ (tracks_estimate c q) pre b p b' post h

/-- C31 fails for the first batch: whatever the budget, if the first array lives on worker 0 only, any number
of arrays on worker 1 join its batch, however large. -/
theorem C31_first_batch_over_budget_fails (budget size n : Nat) :
    ∃ (c : Cfg) (params : List (Arr × Unit)), params.length = n + 1 ∧ isWorker c 1 ∧
      ((1 : Int) < budget → ∃ b, batches c budget params = some [b] ∧ total c b 1 = n * size) := by
  refine ⟨⟨[0, 1], id, none, false⟩,
    (⟨[⟨0, 0⟩], 1⟩, ()) :: List.replicate n (⟨[⟨1, 0⟩], size⟩, ()), by simp, ⟨1, by simp, rfl⟩, ?_⟩
  intro hb
  have key : ∀ (k : Nat) (cur : List (Arr × Unit)),
      loop ⟨[0, 1], id, none, false⟩ budget cur [(0, 1)] (List.replicate k (⟨[⟨1, 0⟩], size⟩, ()))
        = [cur ++ List.replicate k (⟨[⟨1, 0⟩], size⟩, ())] := by
    intro k
    induction k with
    | zero => intro cur; simp [loop]
    | succ k ih =>
      intro cur
      have e : increment ⟨[0, 1], id, none, false⟩ ⟨[⟨1, 0⟩], size⟩ [(0, 1)] = [(0, 1)] := by
        simp [increment, get_estimate, bytesOn, countsOn]
      rw [List.replicate_succ, loop, e]
      have : underBudget budget [(0, 1)] = true := by simp [underBudget]; exact_mod_cast hb
      rw [this]
      simp [ih]
  have e : estimate ⟨[0, 1], id, none, false⟩ ⟨[⟨0, 0⟩], 1⟩ = [(0, 1)] := by decide
  refine ⟨[(⟨[⟨0, 0⟩], 1⟩, ())] ++ List.replicate n (⟨[⟨1, 0⟩], size⟩, ()), ?_, ?_⟩
  · rw [batches, e, key]
  · simp [total, bytesOn, countsOn]

/-! Non-vacuity: two workers, five arrays on both, budget 10: batches of 2, 1 and 2 arrays. -/

def exCfg : Cfg := ⟨[0, 1], id, some 0, false⟩
def exArr (n : Nat) : Arr × Nat := (⟨[⟨0, 0⟩, ⟨1, 0⟩, ⟨1, 1⟩], n⟩, n)

example : batches exCfg 10 [exArr 4, exArr 5, exArr 20, exArr 3, exArr 6] =
    some [[exArr 4, exArr 5], [exArr 20], [exArr 3, exArr 6]] := by decide

example : ∀ w, isWorker exCfg w → touches exCfg (exArr 4).1 w := by
  rintro w ⟨d, hd, rfl⟩
  rcases List.mem_cons.mp hd with rfl | hd
  · exact ⟨⟨0, 0⟩, by simp [exArr], by decide⟩
  · rcases List.mem_cons.mp hd with rfl | hd
    · exact ⟨⟨1, 0⟩, by simp [exArr], by decide⟩
    · simp at hd

end Verif.Memory.Batches
