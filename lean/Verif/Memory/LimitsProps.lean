import Verif.Memory.Limits

/-!
# Properties of the byte limiter (C30)

Specification: `outstanding` is the sum of the reservations of the tasks that are inside their
`reserved_bytes` body; `finished` says that a task has left it, was refused, or was cancelled.
-/

namespace Verif.Memory.Limits

/-- Bytes held by a task. -/
def held : Task → Nat
  | .holding n => n
  | _ => 0

/-- Sum of the outstanding reservations. -/
def outstanding (s : St) : Nat := (s.tasks.map held).sum

/-- The size the task asks for. -/
def size : Task → Nat
  | .idle n | .sleeping n | .woken n | .holding n | .done n | .rejected n | .cancelled n => n

/-- The task has nothing more to do. -/
def finished : Task → Bool
  | .done _ | .rejected _ | .cancelled _ => true
  | _ => false

/-! ### Lemmas -/

theorem sum_set {f : Task → Nat} : ∀ (l : List Task) (i : Nat) (t t' : Task), l[i]? = some t →
    ((l.set i t').map f).sum + f t = (l.map f).sum + f t'
  | [], i, _, _, h => by simp at h
  | a :: l, 0, t, t', h => by
    simp at h; subst h; simp; omega
  | a :: l, i+1, t, t', h => by
    have := sum_set (f := f) l i t t' (by simpa using h)
    simp only [List.set_cons_succ, List.map_cons, List.sum_cons]; omega

theorem held_wake (t : Task) : held (wake t) = held t := by cases t <;> rfl
theorem finished_wake (t : Task) : finished (wake t) = finished t := by cases t <;> rfl
theorem size_wake (t : Task) : size (wake t) = size t := by cases t <;> rfl

theorem map_wake {β} (f : Task → β) (h : ∀ t, f (wake t) = f t) (l : List Task) :
    (l.map wake).map f = l.map f := by
  rw [List.map_map]; exact List.map_congr_left fun t _ => h t

theorem mem_set {l : List Task} {i : Nat} {a t : Task} (h : t ∈ l.set i a) : t ∈ l ∨ t = a :=
  List.mem_or_eq_of_mem_set h

structure Inv (m : Nat) (sizes : List Nat) (s : St) : Prop where
  max : s.maxBytes = m
  bal : s.available + outstanding s = m
  pos : 0 < s.available
  asleep : ∀ n : Nat, .sleeping n ∈ s.tasks → s.available ≤ n ∧ n < m
  waking : ∀ n, .woken n ∈ s.tasks → n < m
  held : ∀ n, .holding n ∈ s.tasks → n < m
  sizes : s.tasks.map size = sizes
  rej : ∀ n, .rejected n ∈ s.tasks → m ≤ n

theorem map_size_set {l : List Task} {i : Nat} {t t' : Task} (h : l[i]? = some t) (hs : size t' = size t) :
    (l.set i t').map size = l.map size := by
  apply List.ext_getElem?
  intro j
  rw [List.getElem?_map, List.getElem?_map, List.getElem?_set]
  by_cases e : i = j
  · subst e
    have hl : i < l.length := by
      rcases Nat.lt_or_ge i l.length with h' | h'
      · exact h'
      · rw [List.getElem?_eq_none h'] at h; cases h
    simp only [if_true, hl, h, Option.map_some, hs]
  · simp only [e, if_false]

theorem inv_tryReserve {m sizes s i n t} (I : Inv m sizes s) (h : s.tasks[i]? = some t) (hh : Limits.held t = 0)
    (hs : size t = n) (hn : n < m) : Inv m sizes (tryReserve s i n) := by
  unfold tryReserve
  split
  · next hav =>
    constructor
    · exact I.max
    · have := sum_set (f := Limits.held) s.tasks i t (.holding n) h
      have hb := I.bal
      simp only [outstanding] at hb ⊢
      simp only [hh] at this
      simp only [Limits.held] at this
      omega
    · show 0 < s.available - n; omega
    · intro k hk
      rcases mem_set hk with h' | h'
      · have := I.asleep k h'
        refine ⟨?_, this.2⟩
        show s.available - n ≤ k
        omega
      · cases h'
    · intro k hk
      rcases mem_set hk with h' | h'
      · exact I.waking k h'
      · cases h'
    · intro k hk
      rcases mem_set hk with h' | h'
      · exact I.held k h'
      · cases h'; exact hn
    · show (s.tasks.set i _).map size = sizes
      rw [map_size_set h (by rw [hs]; rfl)]
      exact I.sizes
    · intro k hk
      rcases mem_set hk with h' | h'
      · exact I.rej k h'
      · cases h'
  · next hav =>
    constructor
    · exact I.max
    · have := sum_set (f := Limits.held) s.tasks i t (.sleeping n) h
      have hb := I.bal
      simp only [outstanding] at hb ⊢
      simp only [hh] at this
      simp only [Limits.held] at this
      omega
    · exact I.pos
    · intro k hk
      rcases mem_set hk with h' | h'
      · exact I.asleep k h'
      · cases h'; exact ⟨by show s.available ≤ n; omega, hn⟩
    · intro k hk
      rcases mem_set hk with h' | h'
      · exact I.waking k h'
      · cases h'
    · intro k hk
      rcases mem_set hk with h' | h'
      · exact I.held k h'
      · cases h'
    · show (s.tasks.set i _).map size = sizes
      rw [map_size_set h (by rw [hs]; rfl)]
      exact I.sizes
    · intro k hk
      rcases mem_set hk with h' | h'
      · exact I.rej k h'
      · cases h'

/-- Replacing a task that holds nothing by a finished one. -/
theorem inv_drop {m sizes s i t t'} (I : Inv m sizes s) (h : s.tasks[i]? = some t) (hh : Limits.held t = 0)
    (hs : size t' = size t) (hf : finished t' = true) (hr : ∀ n, t' = .rejected n → m ≤ n) :
    Inv m sizes { s with tasks := s.tasks.set i t' } := by
  have hh' : Limits.held t' = 0 := by cases t' <;> simp_all [finished, Limits.held]
  constructor
  · exact I.max
  · have := sum_set (f := Limits.held) s.tasks i t t' h
    have hb := I.bal
    simp only [outstanding] at hb ⊢
    omega
  · exact I.pos
  · intro k hk
    rcases mem_set hk with h' | h'
    · exact I.asleep k h'
    · subst h'; simp [finished] at hf
  · intro k hk
    rcases mem_set hk with h' | h'
    · exact I.waking k h'
    · subst h'; simp [finished] at hf
  · intro k hk
    rcases mem_set hk with h' | h'
    · exact I.held k h'
    · subst h'; simp [finished] at hf
  · show (s.tasks.set i _).map size = sizes
    rw [map_size_set h hs]; exact I.sizes
  · intro k hk
    rcases mem_set hk with h' | h'
    · exact I.rej k h'
    · exact hr k h'.symm

theorem inv_release {m sizes s i n} (I : Inv m sizes s) (h : s.tasks[i]? = some (Task.holding n)) :
    Inv m sizes (release s i n) := by
  have key : ∀ (P : Task → Prop), (∀ t ∈ s.tasks, P (wake t)) → P (.done n) →
      ∀ t ∈ (release s i n).tasks, P t := by
    intro P h1 h2 t ht
    obtain ⟨a, ha, rfl⟩ := List.mem_map.mp ht
    rcases mem_set ha with h' | h'
    · exact h1 a h'
    · subst h'; exact h2
  constructor
  · exact I.max
  · have := sum_set (f := Limits.held) s.tasks i _ (.done n) h
    have hb := I.bal
    simp only [outstanding, release, map_wake Limits.held held_wake] at hb ⊢
    simp only [Limits.held] at this
    omega
  · show 0 < s.available + n
    have := I.pos; omega
  · intro k hk
    exfalso
    refine key (fun t => t ≠ .sleeping k) ?_ (by simp) _ hk rfl
    intro t _; cases t <;> simp [wake]
  · intro k hk
    refine key (fun t => ∀ k, t = .woken k → k < m) ?_ (by simp) _ hk k rfl
    intro t ht k e
    cases t <;> simp [wake] at e
    · subst e; exact (I.asleep _ ht).2
    · subst e; exact I.waking _ ht
  · intro k hk
    refine key (fun t => ∀ k, t = .holding k → k < m) ?_ (by simp) _ hk k rfl
    intro t ht k e
    cases t <;> simp [wake] at e
    subst e; exact I.held _ ht
  · show ((s.tasks.set i _).map wake).map size = sizes
    rw [map_wake _ size_wake, map_size_set h (by rfl)]; exact I.sizes
  · intro k hk
    refine key (fun t => ∀ k, t = .rejected k → m ≤ k) ?_ (by simp) _ hk k rfl
    intro t ht k e
    cases t <;> simp [wake] at e
    subst e; exact I.rej _ ht

theorem mem_of_getElem? {l : List Task} {i : Nat} {t : Task} (h : l[i]? = some t) : t ∈ l :=
  List.mem_of_getElem? h

theorem inv_step {m sizes s s'} (I : Inv m sizes s) (h : Step s s') : Inv m sizes s' := by
  cases h with
  | @request i n h =>
    unfold request
    split
    · next hn => exact inv_drop I h rfl rfl rfl (by intro k e; cases e; rw [← I.max]; exact hn)
    · next hn => exact inv_tryReserve I h rfl rfl (by rw [I.max] at hn; omega)
  | @recheck i n h => exact inv_tryReserve I h rfl rfl (I.waking n (mem_of_getElem? h))
  | release h => exact inv_release I h
  | @cancel i n h =>
    rcases h with h | h | h <;> exact inv_drop I h rfl rfl rfl (by simp)

theorem sum_idle (sizes : List Nat) : ((sizes.map Task.idle).map held).sum = 0 := by
  induction sizes with
  | nil => rfl
  | cons a l ih => simpa [held] using ih

theorem inv_reach {numBytes sizes s} (h : Reach numBytes sizes s) : Inv numBytes.toNat sizes s := by
  induction h with
  | init h =>
    unfold mk at h
    split at h
    · cases h
    · next hn =>
      cases h
      refine ⟨rfl, ?_, by simp; omega, by simp, by simp, by simp, ?_, by simp⟩
      · simp only [outstanding, sum_idle]; simp
      · simp [List.map_map, Function.comp_def, size]
  | step _ hs ih => exact inv_step ih hs

/-! ### C30 -/

/-- C30: the bytes held by the tasks inside their `reserved_bytes` body add up to less than the limit, in
every reachable state. -/
theorem C30_budget {numBytes sizes s} (h : Reach numBytes sizes s) : (outstanding s : Int) < numBytes := by
  have I := inv_reach h
  have h1 := I.bal
  have h2 := I.pos
  omega

/-- C30: the two assertions of the limiter (limits.py:64, 75) never fire. -/
theorem C30_assertions {numBytes sizes s} (h : Reach numBytes sizes s) :
    0 ≤ s.available ∧ s.available ≤ s.maxBytes := by
  have I := inv_reach h
  have h1 := I.bal
  have h2 := I.pos
  have h3 := I.max
  omega

/-- C30: releasing restores the budget exactly: whatever happened, what is available is the limit less what
is outstanding; in particular it is the whole limit when no task is inside its body. -/
theorem C30_release_restores {numBytes sizes s} (h : Reach numBytes sizes s) :
    s.available = numBytes - outstanding s := by
  have I := inv_reach h
  have h1 := I.bal
  have h2 := I.pos
  omega

/-- C30: a request is refused if and only if it is not smaller than the limit: tasks refused are at least
that large, and no such task ever waits or is admitted. -/
theorem C30_refused_iff {numBytes sizes s} (h : Reach numBytes sizes s) :
    ∀ t ∈ s.tasks, (∀ n, t = .rejected n → numBytes ≤ n) ∧
      (∀ n, (t = .sleeping n ∨ t = .woken n ∨ t = .holding n) → (n : Int) < numBytes) := by
  have I := inv_reach h
  intro t ht
  constructor
  · rintro n rfl
    have := I.rej n ht
    omega
  · rintro n (rfl | rfl | rfl)
    · have := (I.asleep n ht).2; omega
    · have := I.waking n ht; omega
    · have := I.held n ht; omega

/-- C30: no wake-up is lost: a task is asleep only while what is available does not exceed its request. -/
theorem C30_no_lost_wakeup {numBytes sizes s} (h : Reach numBytes sizes s) {n : Nat}
    (ht : .sleeping n ∈ s.tasks) : numBytes - outstanding s ≤ n := by
  rw [← C30_release_restores h]
  exact ((inv_reach h).asleep n ht).1

theorem exists_held {l : List Task} (h : 0 < (l.map held).sum) : ∃ i n : Nat, l[i]? = some (Task.holding n) := by
  induction l with
  | nil => simp at h
  | cons a l ih =>
    by_cases ha : held a = 0
    · obtain ⟨i, n, hi⟩ := ih (by simpa [ha] using h)
      exact ⟨i+1, n, by simpa using hi⟩
    · refine ⟨0, held a, ?_⟩
      cases a <;> simp [held] at ha ⊢

/-- C30: no deadlock: as long as a task is unfinished, some task that is not merely cancelled can run. -/
theorem C30_progress {numBytes sizes s} (h : Reach numBytes sizes s) {t} (ht : t ∈ s.tasks)
    (hf : finished t = false) :
    ∃ i n : Nat, s.tasks[i]? = some (Task.idle n) ∨ s.tasks[i]? = some (Task.woken n) ∨ s.tasks[i]? = some (Task.holding n) := by
  obtain ⟨i, hi⟩ := List.mem_iff_getElem?.mp ht
  cases t with
  | idle n => exact ⟨i, n, .inl hi⟩
  | woken n => exact ⟨i, n, .inr (.inl hi)⟩
  | holding n => exact ⟨i, n, .inr (.inr hi)⟩
  | sleeping n =>
    have I := inv_reach h
    have h1 := I.asleep n ht
    have h2 := I.bal
    obtain ⟨j, k, hj⟩ := exists_held (l := s.tasks) (by unfold outstanding at h2; omega)
    exact ⟨j, k, .inr (.inr hj)⟩
  | done n => simp [finished] at hf
  | rejected n => simp [finished] at hf
  | cancelled n => simp [finished] at hf

/-! Termination. -/

def cost (N : Nat) : Task → Nat
  | .idle _ => N + 2
  | .woken _ => N + 2
  | .sleeping _ => N + 1
  | .holding _ => N + 1
  | _ => 0

def potential (s : St) : Nat := (s.tasks.map (cost s.tasks.length)).sum

theorem cost_wake_le (N : Nat) (t : Task) : cost N (wake t) ≤ cost N t + 1 := by cases t <;> simp [wake, cost]

theorem sum_wake_le (N : Nat) : ∀ l : List Task, ((l.map wake).map (cost N)).sum ≤ (l.map (cost N)).sum + l.length
  | [] => by simp
  | a :: l => by
    have := sum_wake_le N l
    have := cost_wake_le N a
    simp at *; omega

theorem length_tryReserve (s : St) (i n : Nat) : (tryReserve s i n).tasks.length = s.tasks.length := by
  unfold tryReserve; split <;> simp

theorem potential_set {s : St} {i : Nat} {t t' : Task} {a : Int} (h : s.tasks[i]? = some t)
    (hc : cost s.tasks.length t' < cost s.tasks.length t) :
    potential { s with available := a, tasks := s.tasks.set i t' } < potential s := by
  have := sum_set (f := cost s.tasks.length) s.tasks i t t' h
  simp only [potential, List.length_set]
  omega

theorem potential_step {s s'} (h : Step s s') : potential s' < potential s := by
  cases h with
  | @request i n h =>
    unfold request tryReserve
    split
    · exact potential_set h (by simp [cost])
    · split
      · exact potential_set h (by simp [cost])
      · exact potential_set h (by simp [cost])
  | @recheck i n h =>
    unfold tryReserve
    split
    · exact potential_set h (by simp [cost])
    · exact potential_set h (by simp [cost])
  | @release i n h =>
    have h1 := sum_set (f := cost s.tasks.length) s.tasks i _ (.done n) h
    have h2 := sum_wake_le s.tasks.length (s.tasks.set i (.done n))
    simp only [release, potential, List.length_map, List.length_set] at h2 ⊢
    simp only [cost] at h1
    omega
  | @cancel i n h =>
    rcases h with h | h | h <;> exact potential_set h (by simp [cost])

theorem reach_steps {numBytes sizes k s s'} (h : Reach numBytes sizes s) (hk : Steps k s s') :
    Reach numBytes sizes s' := by
  induction hk with
  | refl => exact h
  | tail _ hs ih => exact .step (ih h) hs

theorem steps_potential {k s s'} (h : Steps k s s') : k + potential s' ≤ potential s := by
  induction h with
  | refl => simp
  | tail _ hs ih => have := potential_step hs; omega

theorem sum_cost_idle (N : Nat) (sizes : List Nat) :
    ((sizes.map Task.idle).map (cost N)).sum = sizes.length * (N + 2) := by
  induction sizes with
  | nil => simp
  | cons a l ih => simp [cost] at ih ⊢; rw [ih, Nat.succ_mul]; omega

/-- C30: every task is eventually served: however the tasks are scheduled, `N` tasks take at most `N·(N+2)`
steps in all (so none waits for ever while the others go on), and when no task can take a step other than by
cancellation every one of them has finished. -/
theorem C30_all_served {numBytes sizes s s' k} (h0 : mk numBytes sizes = some s) (h : Steps k s s') :
    k ≤ sizes.length * (sizes.length + 2) ∧
    ((∀ i n : Nat, s'.tasks[i]? ≠ some (Task.idle n) ∧ s'.tasks[i]? ≠ some (Task.woken n) ∧
        s'.tasks[i]? ≠ some (Task.holding n)) → ∀ t ∈ s'.tasks, finished t = true) := by
  constructor
  · have h1 := steps_potential h
    unfold mk at h0
    split at h0
    · cases h0
    · cases h0
      simp only [potential, List.length_map, sum_cost_idle] at h1
      omega
  · intro hstuck t ht
    by_cases hf : finished t = true
    · exact hf
    · obtain ⟨i, n, hi⟩ := C30_progress (reach_steps (.init h0) h) ht (by simpa using hf)
      have := hstuck i n
      rcases hi with hi | hi | hi
      · exact absurd hi this.1
      · exact absurd hi this.2.1
      · exact absurd hi this.2.2

/-- C30: the tasks keep their requests: after any run the list of tasks is the one given, in order, so a
task smaller than the limit that finished without being cancelled had its reservation. -/
theorem C30_finished_means_served {numBytes sizes s} (h : Reach numBytes sizes s) {i n : Nat}
    (hi : sizes[i]? = some n) (hn : (n : Int) < numBytes) {t} (ht : s.tasks[i]? = some t)
    (hf : finished t = true) : t = .done n ∨ t = .cancelled n := by
  have I := inv_reach h
  have hs : size t = n := by
    have := I.sizes
    subst this
    simpa [ht] using hi
  have hm := mem_of_getElem? ht
  cases t <;> simp [finished] at hf <;> simp [size] at hs
  · subst hs; exact .inl rfl
  · subst hs; have := I.rej _ hm; omega
  · subst hs; exact .inr rfl

/-- C30: `get_byte_limiter` accepts exactly a missing limit or a positive one. -/
theorem C30_get_byte_limiter (c : Option Int) (sizes : List Nat) :
    (getByteLimiter c sizes = none ↔ ∃ n, c = some n ∧ n ≤ 0) ∧
    (∀ s, getByteLimiter c sizes = some (some s) ↔ ∃ n, c = some n ∧ mk n sizes = some s) := by
  cases c with
  | none => simp [getByteLimiter]
  | some n =>
    simp only [getByteLimiter, mk]
    by_cases h : n ≤ 0
    · simp [h]
    · simp [h]; omega

/-- C30 (boundary): a request of exactly the limit is refused although nothing is in flight; the error
message ("Requested more bytes than we reserved space for") says otherwise. -/
theorem C30_request_of_exactly_the_limit_refused_fails (m : Nat) (hm : 0 < m) :
    ∃ s s', mk m [m] = some s ∧ Step s s' ∧ s'.tasks = [.rejected m] := by
  refine ⟨{ maxBytes := m, available := m, tasks := [.idle m] }, _, ?_, .request (i := 0) (n := m) rfl, ?_⟩
  · simp [mk]; omega
  · simp [request]

/-! Non-vacuity: limit 10, three tasks of 6, 5 and 3 bytes: the second waits for the first, and all finish. -/

theorem steps_trans {a b c s1 s2 s3} (h1 : Steps a s1 s2) (h2 : Step s2 s3) (e : a + 1 = b) (e' : s3 = c) :
    Steps b s1 c := by subst e; subst e'; exact .tail h1 h2

example : ∃ s s', mk 10 [6, 5, 3] = some s ∧ Steps 3 s s' ∧
    s'.tasks = [.holding 6, .sleeping 5, .holding 3] ∧ outstanding s' = 9 := by
  refine ⟨_, _, rfl, .tail (.tail (.tail (.refl _) (.request (i := 0) (n := 6) rfl))
    (.request (i := 1) (n := 5) rfl)) (.request (i := 2) (n := 3) rfl), rfl, rfl⟩

example : ∃ s s', mk 10 [6, 5, 3] = some s ∧ Steps 7 s s' ∧
    s'.tasks = [.done 6, .done 5, .done 3] ∧ s'.available = 10 := by
  refine ⟨_, _, rfl, .tail (.tail (.tail (.tail (.tail (.tail (.tail (.refl _)
    (.request (i := 0) (n := 6) rfl)) (.request (i := 1) (n := 5) rfl)) (.request (i := 2) (n := 3) rfl))
    (.release (i := 0) (n := 6) rfl)) (.recheck (i := 1) (n := 5) rfl)) (.release (i := 2) (n := 3) rfl))
    (.release (i := 1) (n := 5) rfl), rfl, rfl⟩

end Verif.Memory.Limits
