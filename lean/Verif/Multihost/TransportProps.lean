/-
C111: Values moved to the CPUs of the hosts and back stay what and where they are.

Specification and theorems about `Verif.Multihost.Transport`.
-/
import Verif.Multihost.Transport

namespace Verif.Transport

/-! ### Specification -/

/-- The number a string of decimal digits stands for. -/
inductive Decimal : Str → Nat → Prop
  | nil : Decimal [] 0
  | snoc (ds : Str) (c : Char) (n : Nat) : Decimal ds n → Decimal (ds ++ [c])
      (10 * n + (c.toNat - '0'.toNat))

/-- The text shows the global id `k`: the first place where the marker stands before a
digit is followed by exactly the digits of `k`. -/
def ShowsId (text : Str) (k : Nat) : Prop :=
  ∃ pre ds rest,
    text = pre ++ "PjRtIFRTDeviceId=".toList ++ ds ++ rest ∧
    ds ≠ [] ∧ (∀ c ∈ ds, c.isDigit = true) ∧ (∀ c r, rest = c :: r → c.isDigit = false) ∧
    Decimal ds k ∧
    ∀ p c q, text = p ++ "PjRtIFRTDeviceId=".toList ++ c :: q → c.isDigit = true →
      pre.length ≤ p.length

/-- A device that one of the backends of the process shows: the default backend or any
other. -/
def Visible (P : Process) (d : Dev) : Prop :=
  (∃ l ls, P.localDevices = l :: ls ∧ d ∈ P.clientDevices l.client) ∨
  ∃ b ∈ P.backends, d ∈ P.clientDevices b

/-- A device is one object: what has the same client, id and platform is the same. -/
def OneObject (P : Process) : Prop :=
  ∀ d d', Visible P d → Visible P d' → d.client = d'.client → d.id = d'.id →
    d.platform = d'.platform → d = d'

/-- `k` names the CPU `d`, as its global or its local id. -/
def Names (P : Process) (k : Nat) (d : Dev) : Prop :=
  Visible P d ∧ d.platform = ['c', 'p', 'u'] ∧ (ShowsId d.repr k ∨ d.id = k)

/-- Some number names two CPUs. -/
def Ambiguous (P : Process) : Prop :=
  ∃ k d d', Names P k d ∧ Names P k d' ∧ d ≠ d'

/-- The sharding `t` is `s` with each device replaced by the CPU of its host. -/
def OnHosts (host : Dev → Dev) (s t : Sharding) : Prop :=
  (∃ d k, s = .single d k ∧ t = .single (host d) k) ∨
  (∃ ds shape axes types spec k,
    s = .named ⟨ds, shape, axes, types⟩ spec k ∧
    t = .named ⟨ds.map host, shape, axes, types⟩ spec k)

/-- A sharding on one device or on a mesh. -/
def Supported (s : Sharding) : Prop := (∃ d k, s = .single d k) ∨ ∃ m sp k, s = .named m sp k

/-! ### Reading the id -/

theorem stripPrefix_iff (p s r : Str) : stripPrefix p s = some r ↔ s = p ++ r := by
  induction p generalizing s with
  | nil => simp [stripPrefix, eq_comm]
  | cons a p ih =>
    cases s with
    | nil => simp [stripPrefix]
    | cons c cs =>
      simp only [stripPrefix]
      split
      · next h => subst h; rw [ih]; simp
      · next h => simp; intro h2; exact absurd h2.symm h

theorem toInt_snoc (ds : Str) (c : Char) : toInt (ds ++ [c]) = 10 * toInt ds + (c.toNat - 48) := by
  simp [toInt, List.foldl_append]

theorem decimal_iff (ds : Str) (k : Nat) : Decimal ds k ↔ toInt ds = k := by
  constructor
  · intro h
    induction h with
    | nil => rfl
    | snoc ds c n _ ih => rw [toInt_snoc, ih]; rfl
  · intro h
    subst h
    have key : ∀ rs : Str, Decimal rs.reverse (toInt rs.reverse) := by
      intro rs
      induction rs with
      | nil => exact Decimal.nil
      | cons c rs ih =>
        rw [List.reverse_cons, toInt_snoc]
        exact Decimal.snoc _ _ _ ih
    have := key ds.reverse
    simpa using this

theorem takeWhile_append_stop (p : Char → Bool) (ds rest : Str) (h1 : ∀ c ∈ ds, p c = true)
    (h2 : ∀ c r, rest = c :: r → p c = false) : (ds ++ rest).takeWhile p = ds := by
  induction ds with
  | nil =>
    cases rest with
    | nil => rfl
    | cons c r => simp [List.takeWhile_cons, h2 c r rfl]
  | cons d ds ih =>
    simp only [List.cons_append, List.takeWhile_cons, h1 d (List.mem_cons_self ..), ↓reduceIte]
    rw [ih (fun c hc => h1 c (List.mem_cons_of_mem _ hc))]

theorem takeWhile_all (p : Char → Bool) (s : Str) : ∀ c ∈ s.takeWhile p, p c = true := by
  induction s with
  | nil => simp
  | cons a s ih =>
    simp only [List.takeWhile_cons]
    split
    · next h =>
      intro c hc
      rcases List.mem_cons.mp hc with rfl | hc
      · exact h
      · exact ih c hc
    · simp

theorem dropWhile_stop (p : Char → Bool) (s : Str) :
    ∀ c r, s.dropWhile p = c :: r → p c = false := by
  induction s with
  | nil => simp
  | cons a s ih =>
    intro c r
    simp only [List.dropWhile_cons]
    split
    · exact ih c r
    · next h => intro hh; cases hh; simpa using h

theorem shows_cons_of (c : Char) (cs : Str) (k : Nat) (h : ShowsId cs k)
    (hno : ∀ x q, c :: cs = "PjRtIFRTDeviceId=".toList ++ x :: q → x.isDigit = false) :
    ShowsId (c :: cs) k := by
  obtain ⟨pre, ds, rest, h1, h2, h3, h4, h5, h6⟩ := h
  refine ⟨c :: pre, ds, rest, by rw [h1]; simp, h2, h3, h4, h5, ?_⟩
  intro p x q hx hd
  cases p with
  | nil =>
    have := hno x q (by simpa using hx)
    rw [this] at hd; cases hd
  | cons y p =>
    simp only [List.cons_append, List.cons.injEq] at hx
    have := h6 p x q (by simpa using hx.2) hd
    simp only [List.length_cons]; omega

theorem shows_of_cons (c : Char) (cs : Str) (k : Nat) (h : ShowsId (c :: cs) k)
    (hno : ∀ x q, c :: cs = "PjRtIFRTDeviceId=".toList ++ x :: q → x.isDigit = false) :
    ShowsId cs k := by
  obtain ⟨pre, ds, rest, h1, h2, h3, h4, h5, h6⟩ := h
  cases pre with
  | nil =>
    cases ds with
    | nil => exact absurd rfl h2
    | cons d ds =>
      have := hno d (ds ++ rest) (by simpa using h1)
      rw [h3 d (List.mem_cons_self ..)] at this; cases this
  | cons y pre =>
    simp only [List.cons_append, List.cons.injEq] at h1
    refine ⟨pre, ds, rest, by simpa using h1.2, h2, h3, h4, h5, ?_⟩
    intro p x q hx hd
    have := h6 (c :: p) x q (by rw [hx]; simp) hd
    simp only [List.length_cons] at this; omega

theorem marker_eq : marker = "PjRtIFRTDeviceId=".toList := rfl

/-- C111: the global id is read from the text of a device exactly as it stands there. -/
theorem C111_shows (text : Str) (k : Nat) : extractId text = some k ↔ ShowsId text k := by
  induction text with
  | nil =>
    simp only [extractId]
    constructor
    · intro h; cases h
    · rintro ⟨pre, ds, rest, h1, _⟩
      exfalso
      have := congrArg List.length h1
      simp at this
  | cons c cs ih =>
    simp only [extractId]
    cases hs : stripPrefix marker (c :: cs) with
    | none =>
      simp only []
      have hno : ∀ x q, c :: cs = "PjRtIFRTDeviceId=".toList ++ x :: q → x.isDigit = false := by
        intro x q hx
        rw [← marker_eq, ← stripPrefix_iff, hs] at hx; cases hx
      rw [ih]
      exact ⟨fun h => shows_cons_of c cs k h hno, fun h => shows_of_cons c cs k h hno⟩
    | some rest =>
      simp only []
      have hr := (stripPrefix_iff _ _ _).mp hs
      by_cases he : (rest.takeWhile Char.isDigit).isEmpty = true
      · simp only [he, ↓reduceIte]
        have hno : ∀ x q, c :: cs = "PjRtIFRTDeviceId=".toList ++ x :: q → x.isDigit = false := by
          intro x q hx
          rw [← marker_eq, hr] at hx
          have := List.append_cancel_left hx
          rw [this, List.takeWhile_cons] at he
          cases hd : x.isDigit with
          | false => rfl
          | true => simp [hd] at he
        rw [ih]
        exact ⟨fun h => shows_cons_of c cs k h hno, fun h => shows_of_cons c cs k h hno⟩
      · simp only [he, Bool.false_eq_true, ↓reduceIte, Option.some.injEq]
        constructor
        · intro hk
          refine ⟨[], rest.takeWhile Char.isDigit, rest.dropWhile Char.isDigit, ?_, ?_,
            takeWhile_all _ _, dropWhile_stop _ _, (decimal_iff _ _).mpr hk, ?_⟩
          · rw [hr, marker_eq]; simp [List.takeWhile_append_dropWhile]
          · intro h; rw [h] at he; simp at he
          · intro p x q _ _; simp
        · rintro ⟨pre, ds, rest', h1, h2, h3, h4, h5, h6⟩
          have h0 : pre.length ≤ 0 := by
            cases ht : rest with
            | nil => rw [ht] at he; simp at he
            | cons x q =>
              have hx : x.isDigit = true := by
                rw [ht, List.takeWhile_cons] at he
                cases hd : x.isDigit with
                | true => rfl
                | false => simp [hd] at he
              exact h6 [] x q (by rw [hr, ht, marker_eq]; simp) hx
          have hp : pre = [] := List.length_eq_zero_iff.mp (by omega)
          subst hp
          rw [hr, marker_eq] at h1
          simp only [List.nil_append, List.append_assoc] at h1
          have h7 := List.append_cancel_left h1
          rw [h7, takeWhile_append_stop _ ds rest' h3 h4]
          exact (decimal_iff _ _).mp h5

theorem C111_shows_nonvacuous :
    ShowsId "CpuDevice(id=0)[PjRtIFRTDeviceId=120]".toList 120 ∧
    ¬ ∃ k, ShowsId "CpuDevice(id=0)".toList k := by
  refine ⟨(C111_shows _ _).mp (by decide +kernel), ?_⟩
  rintro ⟨k, h⟩
  have := (C111_shows _ _).mpr h
  have h2 : extractId "CpuDevice(id=0)".toList = none := by decide +kernel
  rw [h2] at this; cases this

/-! ### The devices of the backends -/

theorem mem_setDefault (ds : List Dev) (d e : Dev) : e ∈ setDefault ds d → e ∈ ds ∨ e = d := by
  simp only [setDefault]
  split
  · exact Or.inl
  · intro h; simpa using h

theorem mem_fold (l acc : List Dev) (e : Dev) :
    e ∈ l.foldl setDefault acc → e ∈ acc ∨ e ∈ l := by
  induction l generalizing acc with
  | nil => exact Or.inl
  | cons d l ih =>
    intro h
    rcases ih _ h with h | h
    · rcases mem_setDefault _ _ _ h with h | h
      · exact Or.inl h
      · subst h; exact Or.inr (List.mem_cons_self ..)
    · exact Or.inr (List.mem_cons_of_mem _ h)

theorem has_setDefault (ds : List Dev) (d e : Dev)
    (h : (∃ x ∈ ds, key x = key e) ∨ e = d) : ∃ x ∈ setDefault ds d, key x = key e := by
  simp only [setDefault]
  split
  · next ha =>
    rcases h with h | rfl
    · exact h
    · obtain ⟨x, hx, hk⟩ := List.any_eq_true.mp ha
      exact ⟨x, hx, by simpa using hk⟩
  · rcases h with ⟨x, hx, hk⟩ | rfl
    · exact ⟨x, List.mem_append_left _ hx, hk⟩
    · exact ⟨e, List.mem_append_right _ (List.mem_singleton.mpr rfl), rfl⟩

theorem has_fold (l acc : List Dev) (e : Dev)
    (h : (∃ x ∈ acc, key x = key e) ∨ e ∈ l) : ∃ x ∈ l.foldl setDefault acc, key x = key e := by
  induction l generalizing acc with
  | nil =>
    rcases h with h | h
    · exact h
    · cases h
  | cons d l ih =>
    apply ih
    rcases h with h | h
    · exact Or.inl (has_setDefault _ _ _ (Or.inl h))
    · rcases List.mem_cons.mp h with h | h
      · exact Or.inl (has_setDefault _ _ _ (Or.inr h))
      · exact Or.inr h

theorem mem_backends (cd : Nat → List Dev) (bs : List Nat) (acc : List Dev) (e : Dev) :
    e ∈ bs.foldl (fun acc b => (cd b).foldl setDefault acc) acc → e ∈ acc ∨ ∃ b ∈ bs, e ∈ cd b := by
  induction bs generalizing acc with
  | nil => exact Or.inl
  | cons b bs ih =>
    intro h
    rcases ih _ h with h | ⟨b', hb, h⟩
    · rcases mem_fold _ _ _ h with h | h
      · exact Or.inl h
      · exact Or.inr ⟨b, List.mem_cons_self .., h⟩
    · exact Or.inr ⟨b', List.mem_cons_of_mem _ hb, h⟩

theorem has_backends (cd : Nat → List Dev) (bs : List Nat) (acc : List Dev) (e : Dev)
    (h : (∃ x ∈ acc, key x = key e) ∨ ∃ b ∈ bs, e ∈ cd b) :
    ∃ x ∈ bs.foldl (fun acc b => (cd b).foldl setDefault acc) acc, key x = key e := by
  induction bs generalizing acc with
  | nil =>
    rcases h with h | ⟨b, hb, _⟩
    · exact h
    · cases hb
  | cons b bs ih =>
    apply ih
    rcases h with h | ⟨b', hb, h⟩
    · exact Or.inl (has_fold _ _ _ (Or.inl h))
    · rcases List.mem_cons.mp hb with rfl | hb
      · exact Or.inl (has_fold _ _ _ (Or.inr h))
      · exact Or.inr ⟨b', hb, h⟩

theorem mem_all (P : Process) (h1 : OneObject P) (d : Dev) :
    d ∈ allBackendDevices P ↔ Visible P d := by
  have sound : ∀ e, e ∈ allBackendDevices P → Visible P e := by
    intro e h
    rcases mem_backends _ _ _ _ h with h | h
    · cases hl : P.localDevices with
      | nil => simp [hl] at h
      | cons l ls =>
        simp only [hl] at h
        rcases mem_fold _ _ _ h with h | h
        · cases h
        · exact Or.inl ⟨l, ls, hl, h⟩
    · exact Or.inr h
  refine ⟨sound d, fun hv => ?_⟩
  have hk : ∃ x ∈ allBackendDevices P, key x = key d := by
    apply has_backends
    rcases hv with ⟨l, ls, hl, h⟩ | h
    · simp only [hl]
      exact Or.inl (has_fold _ _ _ (Or.inr h))
    · exact Or.inr h
  obtain ⟨x, hx, hkey⟩ := hk
  simp only [key, Prod.mk.injEq] at hkey
  rw [← h1 x d (sound x hx) hv hkey.1 hkey.2.1 hkey.2.2]
  exact hx

/-! ### The map of ids -/

/-- One step of either loop. -/
def addName (name : Dev → Option Nat) (err : Nat → Err) (m : Map) (d : Dev) : Except Err Map :=
  if d.platform != cpu then .ok m else
  match name d with
  | none => .ok m
  | some k =>
    match m.lookup k with
    | some e => if e != d then .error (err k) else .ok m
    | none => .ok ((k, d) :: m)

theorem addIfrt_eq : addIfrt = addName (fun d => extractId d.repr) .ifrtTwice := rfl
theorem addLocal_eq : addLocal = addName (fun d => some d.id) .ambiguous := rfl

theorem addName_ok (name : Dev → Option Nat) (err : Nat → Err) (m m' : Map) (d : Dev)
    (h : addName name err m d = .ok m') :
    (∀ k e, m.lookup k = some e → m'.lookup k = some e) ∧
    (∀ k, d.platform = cpu → name d = some k → m'.lookup k = some d) ∧
    (∀ k e, m'.lookup k = some e → m.lookup k = some e ∨
      (e = d ∧ d.platform = cpu ∧ name d = some k)) := by
  simp only [addName] at h
  split at h
  · next hc =>
    cases h
    refine ⟨fun _ _ h => h, ?_, fun _ _ h => Or.inl h⟩
    intro k hp; simp [hp] at hc
  · next hc =>
    have hc' : d.platform = cpu := by simpa using hc
    split at h
    · next hn =>
      cases h
      refine ⟨fun _ _ h => h, ?_, fun _ _ h => Or.inl h⟩
      intro k _ hk; rw [hn] at hk; cases hk
    · next k hn =>
      split at h
      · next e he =>
        split at h
        · cases h
        · next hne =>
          have hed : e = d := by simpa using hne
          cases h
          refine ⟨fun _ _ h => h, ?_, fun _ _ h => Or.inl h⟩
          intro k' _ hk'; rw [hn] at hk'; cases hk'; rw [he, hed]
      · next he =>
        cases h
        refine ⟨?_, ?_, ?_⟩
        · intro k' e' hk'
          rw [List.lookup_cons]
          cases hb : k' == k with
          | false => exact hk'
          | true =>
            have : k' = k := by simpa using hb
            subst this; rw [he] at hk'; cases hk'
        · intro k' _ hk'; rw [hn] at hk'; cases hk'; simp
        · intro k' e' hk'
          rw [List.lookup_cons] at hk'
          cases hb : k' == k with
          | false => rw [hb] at hk'; exact Or.inl hk'
          | true =>
            have : k' = k := by simpa using hb
            subst this; simp at hk'; exact Or.inr ⟨hk'.symm, hc', hn⟩

theorem addName_err (name : Dev → Option Nat) (err : Nat → Err) (m : Map) (d : Dev) (x : Err)
    (h : addName name err m d = .error x) :
    ∃ k e, m.lookup k = some e ∧ e ≠ d ∧ d.platform = cpu ∧ name d = some k := by
  simp only [addName] at h
  split at h
  · cases h
  · next hc =>
    have hc' : d.platform = cpu := by simpa using hc
    split at h
    · cases h
    · next k hn =>
      split at h
      · next e he =>
        split at h
        · next hne => exact ⟨k, e, he, by simpa using hne, hc', hn⟩
        · cases h
      · cases h

theorem foldName_ok (name : Dev → Option Nat) (err : Nat → Err) (ds : List Dev) (m m' : Map)
    (h : ds.foldlM (addName name err) m = .ok m') :
    (∀ k e, m.lookup k = some e → m'.lookup k = some e) ∧
    (∀ k d, d ∈ ds → d.platform = cpu → name d = some k → m'.lookup k = some d) ∧
    (∀ k e, m'.lookup k = some e → m.lookup k = some e ∨
      (e ∈ ds ∧ e.platform = cpu ∧ name e = some k)) := by
  induction ds generalizing m with
  | nil =>
    simp only [List.foldlM_nil, pure, Except.pure] at h
    cases h
    exact ⟨fun _ _ h => h, fun _ _ h => absurd h (by simp), fun _ _ h => Or.inl h⟩
  | cons d ds ih =>
    simp only [List.foldlM_cons] at h
    cases hs : addName name err m d with
    | error x => rw [hs] at h; cases h
    | ok m1 =>
      rw [hs] at h
      have h' : ds.foldlM (addName name err) m1 = .ok m' := h
      obtain ⟨a1, a2, a3⟩ := addName_ok _ _ _ _ _ hs
      obtain ⟨b1, b2, b3⟩ := ih _ h'
      refine ⟨fun k e hk => b1 k e (a1 k e hk), ?_, ?_⟩
      · intro k e he hp hn
        rcases List.mem_cons.mp he with rfl | he
        · exact b1 _ _ (a2 k hp hn)
        · exact b2 k e he hp hn
      · intro k e hk
        rcases b3 k e hk with hk | ⟨he, hr⟩
        · rcases a3 k e hk with hk | ⟨rfl, hp, hn⟩
          · exact Or.inl hk
          · exact Or.inr ⟨List.mem_cons_self .., hp, hn⟩
        · exact Or.inr ⟨List.mem_cons_of_mem _ he, hr⟩

theorem foldName_err (name : Dev → Option Nat) (err : Nat → Err) (ds : List Dev) (m : Map)
    (x : Err) (h : ds.foldlM (addName name err) m = .error x) :
    ∃ k e d, (m.lookup k = some e ∨ (e ∈ ds ∧ e.platform = cpu ∧ name e = some k)) ∧
      d ∈ ds ∧ e ≠ d ∧ d.platform = cpu ∧ name d = some k := by
  induction ds generalizing m with
  | nil => simp only [List.foldlM_nil, pure, Except.pure] at h; cases h
  | cons d ds ih =>
    simp only [List.foldlM_cons] at h
    cases hs : addName name err m d with
    | error y =>
      obtain ⟨k, e, h1, h2, h3, h4⟩ := addName_err _ _ _ _ _ hs
      exact ⟨k, e, d, Or.inl h1, List.mem_cons_self .., h2, h3, h4⟩
    | ok m1 =>
      rw [hs] at h
      obtain ⟨k, e, d', h1, h2, h3⟩ := ih _ h
      obtain ⟨_, _, a3⟩ := addName_ok _ _ _ _ _ hs
      refine ⟨k, e, d', ?_, List.mem_cons_of_mem _ h2, h3⟩
      rcases h1 with h1 | ⟨h1, hr⟩
      · rcases a3 k e h1 with h1 | ⟨rfl, hp, hn⟩
        · exact Or.inl h1
        · exact Or.inr ⟨List.mem_cons_self .., hp, hn⟩
      · exact Or.inr ⟨List.mem_cons_of_mem _ h1, hr⟩

theorem names_iff (P : Process) (h1 : OneObject P) (k : Nat) (d : Dev) :
    Names P k d ↔ d ∈ allBackendDevices P ∧ d.platform = cpu ∧
      (extractId d.repr = some k ∨ some d.id = some k) := by
  simp only [Names, mem_all P h1, ← C111_shows, Option.some.injEq, cpu]

/-- C111: when the map of a worker can be made, a number is looked up as exactly the
visible CPU it names. -/
theorem C111_lookup (P : Process) (h1 : OneObject P) (m : Map) (hm : cpuDeviceMap P = .ok m)
    (k : Nat) (d : Dev) : m.lookup k = some d ↔ Names P k d := by
  rw [names_iff P h1]
  simp only [cpuDeviceMap, addIfrt_eq, addLocal_eq] at hm
  cases hf : (allBackendDevices P).foldlM (addName (fun d => extractId d.repr) .ifrtTwice) [] with
  | error x => rw [hf] at hm; cases hm
  | ok m1 =>
    rw [hf] at hm
    have hm' : (allBackendDevices P).foldlM (addName (fun d => some d.id) .ambiguous) m1 = .ok m :=
      hm
    obtain ⟨_, a2, a3⟩ := foldName_ok _ _ _ _ _ hf
    obtain ⟨b1, b2, b3⟩ := foldName_ok _ _ _ _ _ hm'
    constructor
    · intro hk
      rcases b3 k d hk with hk | ⟨hd, hp, hn⟩
      · rcases a3 k d hk with hk | ⟨hd, hp, hn⟩
        · simp at hk
        · exact ⟨hd, hp, Or.inl hn⟩
      · exact ⟨hd, hp, Or.inr hn⟩
    · rintro ⟨hd, hp, hn | hn⟩
      · exact b1 _ _ (a2 k d hd hp hn)
      · exact b2 k d hd hp hn

/-- C111: the map fails exactly if some number names two CPUs: it never gives one of two. -/
theorem C111_ambiguous (P : Process) (h1 : OneObject P) :
    (∃ e, cpuDeviceMap P = .error e) ↔ Ambiguous P := by
  constructor
  · rintro ⟨x, hx⟩
    simp only [cpuDeviceMap, addIfrt_eq, addLocal_eq] at hx
    cases hf : (allBackendDevices P).foldlM (addName (fun d => extractId d.repr) .ifrtTwice) [] with
    | error y =>
      obtain ⟨k, e, d, he, hd, hne, hp, hn⟩ := foldName_err _ _ _ _ _ hf
      rcases he with he | ⟨he, hpe, hne'⟩
      · simp at he
      · exact ⟨k, e, d, (names_iff P h1 _ _).mpr ⟨he, hpe, Or.inl hne'⟩,
          (names_iff P h1 _ _).mpr ⟨hd, hp, Or.inl hn⟩, hne⟩
    | ok m1 =>
      rw [hf] at hx
      have hx' : (allBackendDevices P).foldlM (addName (fun d => some d.id) .ambiguous) m1
        = .error x := hx
      obtain ⟨_, _, a3⟩ := foldName_ok _ _ _ _ _ hf
      obtain ⟨k, e, d, he, hd, hne, hp, hn⟩ := foldName_err _ _ _ _ _ hx'
      refine ⟨k, e, d, ?_, (names_iff P h1 _ _).mpr ⟨hd, hp, Or.inr hn⟩, hne⟩
      rcases he with he | ⟨he, hpe, hne'⟩
      · rcases a3 k e he with he | ⟨he, hpe, hne'⟩
        · simp at he
        · exact (names_iff P h1 _ _).mpr ⟨he, hpe, Or.inl hne'⟩
      · exact (names_iff P h1 _ _).mpr ⟨he, hpe, Or.inr hne'⟩
  · rintro ⟨k, d, d', hd, hd', hne⟩
    cases hm : cpuDeviceMap P with
    | error e => exact ⟨e, rfl⟩
    | ok m =>
      have e1 := (C111_lookup P h1 m hm k d).mpr hd
      have e2 := (C111_lookup P h1 m hm k d').mpr hd'
      rw [e1] at e2
      exact absurd (Option.some.inj e2) hne

/-- C111: resolving ids gives exactly the CPUs they name, in order, and fails exactly if
the names are ambiguous or some id names no visible CPU. -/
theorem C111_resolve (P : Process) (h1 : OneObject P) (ids : List Nat) (ds : List Dev) :
    resolve P ids = .ok ds ↔
      ¬ Ambiguous P ∧ ds.length = ids.length ∧
      ∀ i (hi : i < ids.length) (hd : i < ds.length), Names P ids[i] ds[i] := by
  have key : ∀ m, cpuDeviceMap P = .ok m → ∀ ids : List Nat, ∀ ds : List Dev,
      ((ids.filter (fun k => (m.lookup k).isNone)).isEmpty = true ∧
        ids.filterMap (fun k => m.lookup k) = ds) ↔
      (ds.length = ids.length ∧
        ∀ i (hi : i < ids.length) (hd : i < ds.length), Names P ids[i] ds[i]) := by
    intro m hm ids
    induction ids with
    | nil =>
      intro ds
      simp only [List.filter_nil, List.isEmpty_nil, List.filterMap_nil, true_and, List.length_nil]
      constructor
      · rintro rfl; exact ⟨rfl, fun i hi => by omega⟩
      · rintro ⟨h, _⟩; exact (List.length_eq_zero_iff.mp h).symm
    | cons k ids ih =>
      intro ds
      cases hk : m.lookup k with
      | none =>
        simp only [List.filter_cons, hk, Option.isNone_none, ↓reduceIte, List.isEmpty_cons,
          Bool.false_eq_true, false_and, false_iff]
        rintro ⟨hl, hn⟩
        have h0 : 0 < ds.length := by rw [hl]; simp
        have := hn 0 (by simp) h0
        rw [List.getElem_cons_zero, ← C111_lookup P h1 m hm, hk] at this
        cases this
      | some d =>
        simp only [List.filter_cons, hk, Option.isNone_some, Bool.false_eq_true, ↓reduceIte,
          List.filterMap_cons]
        cases ds with
        | nil => simp
        | cons e es =>
          simp only [List.cons.injEq, List.length_cons, Nat.add_right_cancel_iff]
          constructor
          · rintro ⟨hf, rfl, hes⟩
            obtain ⟨hl, hn⟩ := (ih es).mp ⟨hf, hes⟩
            refine ⟨hl, ?_⟩
            intro i hi hd
            cases i with
            | zero => exact (C111_lookup P h1 m hm _ _).mp hk
            | succ i => exact hn i (by simpa using hi) (by simpa using hd)
          · rintro ⟨hl, hn⟩
            have e1 := (C111_lookup P h1 m hm _ _).mpr (hn 0 (by simp) (by simp))
            simp only [List.getElem_cons_zero] at e1
            rw [hk] at e1
            have e2 := (ih es).mpr ⟨hl, fun i hi hd =>
              hn (i + 1) (by simpa using hi) (by simpa using hd)⟩
            exact ⟨e2.1, Option.some.inj e1, e2.2⟩
  simp only [resolve]
  cases hm : cpuDeviceMap P with
  | error e =>
    simp only [reduceCtorEq, false_iff]
    intro h
    exact h.1 ((C111_ambiguous P h1).mp ⟨e, hm⟩)
  | ok m =>
    have hna : ¬ Ambiguous P := by
      intro ha
      obtain ⟨e, he⟩ := (C111_ambiguous P h1).mpr ha
      rw [hm] at he; cases he
    rw [← key m hm ids ds]
    simp only [hna, not_false_eq_true, true_and]
    split
    · next h => simp [h]
    · next h => simp [h]

/-- C111: the error of an unknown id names exactly the ids that no visible CPU has, in
order. -/
theorem C111_missing (P : Process) (h1 : OneObject P) (ids missing : List Nat)
    (h : resolve P ids = .error (.notVisible missing)) :
    missing ≠ [] ∧ missing.Sublist ids ∧
    (∀ k ∈ ids, k ∈ missing ↔ ¬ ∃ d, Names P k d) := by
  simp only [resolve] at h
  cases hm : cpuDeviceMap P with
  | error e =>
    exfalso
    simp only [hm] at h
    simp only [cpuDeviceMap] at hm
    have e1 : ∀ (ds : List Dev) (m : Map) (x : Err), ds.foldlM addIfrt m = .error x →
        x ≠ .notVisible missing := by
      intro ds
      induction ds with
      | nil => intro m x hx; simp only [List.foldlM_nil, pure, Except.pure] at hx; cases hx
      | cons d ds ih =>
        intro m x hx
        simp only [List.foldlM_cons] at hx
        cases hs : addIfrt m d with
        | error y =>
          rw [hs] at hx
          cases hx
          simp only [addIfrt] at hs
          grind
        | ok m1 => rw [hs] at hx; exact ih m1 x hx
    have e2 : ∀ (ds : List Dev) (m : Map) (x : Err), ds.foldlM addLocal m = .error x →
        x ≠ .notVisible missing := by
      intro ds
      induction ds with
      | nil => intro m x hx; simp only [List.foldlM_nil, pure, Except.pure] at hx; cases hx
      | cons d ds ih =>
        intro m x hx
        simp only [List.foldlM_cons] at hx
        cases hs : addLocal m d with
        | error y =>
          rw [hs] at hx
          cases hx
          simp only [addLocal] at hs
          grind
        | ok m1 => rw [hs] at hx; exact ih m1 x hx
    cases h
    cases hf : (allBackendDevices P).foldlM addIfrt [] with
    | error y => rw [hf] at hm; cases hm; exact e1 _ _ _ hf rfl
    | ok m1 => rw [hf] at hm; exact e2 _ _ _ hm rfl
  | ok m =>
    simp only [hm] at h
    split at h
    · cases h
    · next hne =>
      cases h
      refine ⟨?_, List.filter_sublist, ?_⟩
      · intro h0; rw [h0] at hne; simp at hne
      · intro k hk
        simp only [List.mem_filter, hk, true_and]
        cases hl : m.lookup k with
        | none =>
          simp only [Option.isNone_none, true_iff]
          rintro ⟨d, hd⟩
          rw [← C111_lookup P h1 m hm, hl] at hd; cases hd
        | some d =>
          simp only [Option.isNone_some, Bool.false_eq_true, false_iff]
          intro hno
          exact hno ⟨d, (C111_lookup P h1 m hm k d).mp hl⟩

/-! ### Meshes on the way to a worker -/

theorem normalize_devices (J : Jax) (m : Mesh) :
    normalizeMesh J m = { m with devices := m.devices.map (toCpu J) } := by
  simp only [normalizeMesh]
  split
  · next h =>
    have : m.devices.map (toCpu J) = m.devices := by
      rw [List.all_eq_true] at h
      have : ∀ d ∈ m.devices, toCpu J d = d := by
        intro d hd; simp only [toCpu, h d hd, ↓reduceIte]
      rw [List.map_congr_left this, List.map_id']
    rw [this]
  · rfl

/-- C111: a mesh sent to a worker arrives, in the same shape and order, on the CPUs of the
hosts of its devices, if the worker sees them under their global ids; if the numbers are
ambiguous there, it does not arrive at all. -/
theorem C111_mesh (J : Jax) (P : Process) (h1 : OneObject P) (m : Mesh)
    (host : Dev → Dev)
    (hhost : ∀ d, host d = if d.platform = ['c', 'p', 'u'] then d else J.colo d)
    (w : Dev → Dev)
    (hw : ∀ d ∈ m.devices, Visible P (w d) ∧ (w d).platform = ['c', 'p', 'u'] ∧
      ShowsId (w d).repr (host d).id) :
    (¬ Ambiguous P →
      unreduceMesh P (reduceMesh J m) = .ok { m with devices := m.devices.map w }) ∧
    (Ambiguous P → ∃ e, unreduceMesh P (reduceMesh J m) = .error e) := by
  have hh : ∀ d, toCpu J d = host d := by
    intro d; rw [hhost]; simp only [toCpu, cpu, beq_iff_eq]
  constructor
  · intro hna
    cases hm : cpuDeviceMap P with
    | error e => exact absurd ((C111_ambiguous P h1).mp ⟨e, hm⟩) hna
    | ok mp =>
      have hl : ∀ d ∈ m.devices, mp.lookup (toCpu J d).id = some (w d) := by
        intro d hd
        rw [C111_lookup P h1 mp hm, hh]
        obtain ⟨a, b, c⟩ := hw d hd
        exact ⟨a, b, Or.inl c⟩
      simp only [unreduceMesh, hm, reduceMesh, normalize_devices, List.map_map]
      have h2 : (m.devices.map (Dev.id ∘ toCpu J)).any (fun k => (mp.lookup k).isNone) = false := by
        rw [← Bool.not_eq_true, List.any_eq_true]
        rintro ⟨k, hk, hn⟩
        obtain ⟨d, hd, rfl⟩ := List.mem_map.mp hk
        simp only [Function.comp, hl d hd, Option.isNone_some] at hn
        cases hn
      have h3 : ∀ ds : List Dev, (∀ d ∈ ds, mp.lookup (toCpu J d).id = some (w d)) →
          (ds.map (Dev.id ∘ toCpu J)).filterMap (fun k => mp.lookup k) = ds.map w := by
        intro ds
        induction ds with
        | nil => intro _; rfl
        | cons d ds ih =>
          intro h
          simp only [List.map_cons, List.filterMap_cons, Function.comp,
            h d (List.mem_cons_self ..), List.cons.injEq, true_and]
          exact ih (fun e he => h e (List.mem_cons_of_mem _ he))
      simp only [h2, Bool.false_eq_true, ↓reduceIte, h3 _ hl]
  · intro ha
    obtain ⟨e, he⟩ := (C111_ambiguous P h1).mpr ha
    exact ⟨e, by simp only [unreduceMesh, he]⟩

/-- What is sent is on CPUs only, and a mesh of CPUs is sent as it is. -/
theorem C111_normalize (J : Jax) (hJ : ∀ d, (J.colo d).platform = ['c', 'p', 'u']) (m : Mesh)
    (ds : List Dev) :
    (∀ d ∈ (normalizeMesh J m).devices, d.platform = ['c', 'p', 'u']) ∧
    (∀ d ∈ normalizeList J ds, d.platform = ['c', 'p', 'u']) ∧
    ((∀ d ∈ m.devices, d.platform = ['c', 'p', 'u']) → normalizeMesh J m = m) ∧
    (normalizeMesh J m).devices.length = m.devices.length ∧
    (normalizeList J ds).length = ds.length ∧
    ((∀ d ∈ ds, d.platform = ['c', 'p', 'u']) → normalizeList J ds = ds) := by
  have hc : ∀ d, (toCpu J d).platform = ['c', 'p', 'u'] := by
    intro d
    simp only [toCpu]
    split
    · next h => simpa [cpu] using h
    · exact hJ d
  refine ⟨?_, ?_, ?_, ?_, ?_, ?_⟩
  · rw [normalize_devices]
    intro d hd
    obtain ⟨e, _, rfl⟩ := List.mem_map.mp hd
    exact hc e
  · simp only [normalizeList]
    split
    · next h =>
      intro d hd
      have := List.all_eq_true.mp h d hd
      simpa [cpu] using this
    · intro d hd
      obtain ⟨e, _, rfl⟩ := List.mem_map.mp hd
      exact hc e
  · intro h
    have : m.devices.all (fun d => d.platform == cpu) = true := by
      rw [List.all_eq_true]; intro d hd; simp [h d hd, cpu]
    simp only [normalizeMesh, this, ↓reduceIte]
  · rw [normalize_devices]; simp
  · simp only [normalizeList]; split <;> simp
  · intro h
    have : ds.all (fun d => d.platform == cpu) = true := by
      rw [List.all_eq_true]; intro d hd; simp [h d hd, cpu]
    simp only [normalizeList, this, ↓reduceIte]

/-! ### One CPU for each host -/

theorem unique_fold (l acc : List Dev) (seen : List Nat)
    (hs : ∀ k, k ∈ seen ↔ ∃ d ∈ acc, d.id = k) (hn : (acc.map Dev.id).Nodup) :
    let r := (l.foldl (fun (a : List Dev × List Nat) d =>
      if a.2.contains d.id then a else (a.1 ++ [d], d.id :: a.2)) (acc, seen)).1
    (r.map Dev.id).Nodup ∧ (∃ t, r = acc ++ t ∧ t.Sublist l) ∧
    ∀ d, d ∈ acc ∨ d ∈ l → ∃ e ∈ r, e.id = d.id := by
  induction l generalizing acc seen with
  | nil =>
    refine ⟨hn, ⟨[], by simp, List.Sublist.slnil⟩, ?_⟩
    intro d hd
    rcases hd with hd | hd
    · exact ⟨d, hd, rfl⟩
    · cases hd
  | cons x l ih =>
    simp only [List.foldl_cons]
    by_cases hx : seen.contains x.id = true
    · simp only [hx, ↓reduceIte]
      obtain ⟨h1, ⟨t, h2, h3⟩, h4⟩ := ih acc seen hs hn
      refine ⟨h1, ⟨t, h2, h3.cons x⟩, ?_⟩
      intro d hd
      rcases hd with hd | hd
      · exact h4 d (Or.inl hd)
      · rcases List.mem_cons.mp hd with rfl | hd
        · obtain ⟨e, he, hk⟩ := (hs d.id).mp (by simpa using hx)
          obtain ⟨f, hf, hk'⟩ := h4 e (Or.inl he)
          exact ⟨f, hf, hk'.trans hk⟩
        · exact h4 d (Or.inr hd)
    · simp only [hx, Bool.false_eq_true, ↓reduceIte]
      have hx' : x.id ∉ seen := by simpa using hx
      have := ih (acc ++ [x]) (x.id :: seen)
        (by
          intro k
          simp only [List.mem_cons, hs, List.mem_append, List.not_mem_nil, or_false]
          constructor
          · rintro (rfl | ⟨d, hd, rfl⟩)
            · exact ⟨x, Or.inr rfl, rfl⟩
            · exact ⟨d, Or.inl hd, rfl⟩
          · rintro ⟨d, hd | rfl, rfl⟩
            · exact Or.inr ⟨d, hd, rfl⟩
            · exact Or.inl rfl)
        (by
          rw [List.map_append, List.nodup_append]
          refine ⟨hn, by simp, ?_⟩
          intro a ha b hb hab
          simp only [List.map_cons, List.map_nil, List.mem_singleton] at hb
          subst hab; subst hb
          obtain ⟨d, hd, hk⟩ := List.mem_map.mp ha
          exact hx' ((hs _).mpr ⟨d, hd, hk⟩))
      obtain ⟨h1, ⟨t, h2, h3⟩, h4⟩ := this
      refine ⟨h1, ⟨x :: t, by rw [h2]; simp, h3.cons_cons x⟩, ?_⟩
      intro d hd
      apply h4
      rcases hd with hd | hd
      · exact Or.inl (List.mem_append_left _ hd)
      · rcases List.mem_cons.mp hd with rfl | hd
        · exact Or.inl (List.mem_append_right _ (List.mem_singleton.mpr rfl))
        · exact Or.inr hd

/-- C111: among the CPUs of the hosts of the devices, each id is kept once, in order, and
each is represented. -/
theorem C111_unique (J : Jax) (ds : List Dev) :
    ((uniqueCpus J ds).map Dev.id).Nodup ∧
    (uniqueCpus J ds).Sublist (ds.map J.colo) ∧
    ∀ d ∈ ds, ∃ e ∈ uniqueCpus J ds, e.id = (J.colo d).id := by
  obtain ⟨h1, ⟨t, h2, h3⟩, h4⟩ := unique_fold (ds.map J.colo) [] [] (by simp) (by simp)
  simp only [List.nil_append] at h2
  refine ⟨h1, ?_, ?_⟩
  · have h5 : uniqueCpus J ds = t := h2
    rw [h5]; exact h3
  · intro d hd
    exact h4 (J.colo d) (Or.inr (List.mem_map.mpr ⟨d, hd, rfl⟩))

/-! ### Shardings, arguments and arrays -/

/-- C111: a sharding is moved to the CPUs of its hosts exactly if it is on one device or on a
mesh; then each device is replaced by its host's CPU and nothing else changes. -/
theorem C111_sharding (J : Jax) (s t : Sharding) :
    (cpuSharding J s = .ok t ↔ OnHosts J.colo s t) ∧
    ((∃ e, cpuSharding J s = .error e) ↔ ¬ Supported s) := by
  cases s with
  | single d k =>
    simp only [cpuSharding, OnHosts, Supported]
    constructor
    · constructor
      · intro h; cases h; exact Or.inl ⟨d, k, rfl, rfl⟩
      · rintro (⟨d', k', h1, rfl⟩ | ⟨_, _, _, _, _, _, h1, _⟩) <;> cases h1; rfl
    · constructor
      · rintro ⟨e, he⟩; cases he
      · intro h; exact absurd (Or.inl ⟨d, k, rfl⟩) h
  | named m sp k =>
    simp only [cpuSharding, OnHosts, Supported]
    constructor
    · constructor
      · intro h; cases h
        exact Or.inr ⟨m.devices, m.shape, m.axes, m.types, sp, k, rfl, rfl⟩
      · rintro (⟨d', k', h1, rfl⟩ | ⟨_, _, _, _, _, _, h1, rfl⟩) <;> cases h1; rfl
    · constructor
      · rintro ⟨e, he⟩; cases he
      · intro h; exact absurd (Or.inr ⟨m, sp, k, rfl⟩) h
  | other n =>
    simp only [cpuSharding, OnHosts, Supported]
    constructor
    · constructor
      · intro h; cases h
      · rintro (⟨d', k', h1, rfl⟩ | ⟨_, _, _, _, _, _, h1, rfl⟩) <;> cases h1
    · constructor
      · rintro _ (⟨_, _, h⟩ | ⟨_, _, _, h⟩) <;> cases h
      · intro _; exact ⟨_, rfl⟩

/-- The restore arguments `r'` are `r` with the mesh and the shardings moved to the CPUs. -/
def ArgsOnHosts (host : Dev → Dev) (r r' : RestoreArgs) : Prop :=
  r'.rest = r.rest ∧
  (r'.mesh = r.mesh.map (fun m => { m with devices := m.devices.map host })) ∧
  ((r.sharding = .none ∧ r'.sharding = .none) ∨
    ∃ s t, r.sharding = .jax s ∧ r'.sharding = .jax t ∧ OnHosts host s t) ∧
  ((r.replica = none ∧ r'.replica = none) ∨ (r.replica = some none ∧ r'.replica = some none) ∨
    ∃ s t, r.replica = some (some s) ∧ r'.replica = some (some t) ∧ OnHosts host s t)

/-- One leaf is moved: shardings, specifications, arguments and arrays to the CPUs of their
hosts, all else stays; shapes, dtypes and values stay. -/
def LeafOnHosts (host : Dev → Dev) (l l' : Leaf) : Prop :=
  (∃ s t, l = .sharding s ∧ l' = .sharding t ∧ OnHosts host s t) ∨
  (∃ shape dtype s t, l = .spec ⟨shape, dtype, some s⟩ ∧ l' = .spec ⟨shape, dtype, some t⟩ ∧
    OnHosts host s t) ∨
  (∃ r r', l = .args r ∧ l' = .args r' ∧ ArgsOnHosts host r r') ∨
  (∃ shape dtype val s t, l = .array ⟨shape, dtype, val, s⟩ ∧
    l' = .array ⟨shape, dtype, val, t⟩ ∧ OnHosts host s t) ∨
  (∃ n, l = .plain n ∧ l' = .plain n)

/-- A leaf that does not give its sharding as sharding metadata. -/
def NoMetadata (l : Leaf) : Prop := ∀ r m, l = .args r → r.sharding ≠ .metadata m

theorem convertArgs_onHosts (J : Jax) (P : Process) (r r' : RestoreArgs)
    (hm : ∀ m, r.sharding ≠ .metadata m) (h : convertArgs J P r = .ok r') :
    r'.rest = r.rest ∧ r'.replica = r.replica ∧
    (r'.mesh = r.mesh.map (fun m => { m with devices := m.devices.map J.colo })) ∧
    ((r.sharding = .none ∧ r'.sharding = .none) ∨
      ∃ s t, r.sharding = .jax s ∧ r'.sharding = .jax t ∧ OnHosts J.colo s t) := by
  simp only [convertArgs] at h
  split at h
  · next hs => cases h; exact ⟨rfl, rfl, rfl, Or.inl ⟨hs, hs⟩⟩
  · next s hs =>
    split at h
    · cases h
    · next t ht =>
      cases h
      exact ⟨rfl, rfl, rfl, Or.inr ⟨s, t, hs, rfl, ((C111_sharding J s t).1).mp ht⟩⟩
  · next m hs => exact absurd hs (hm m)
  · cases h

/-- C111: each leaf that is moved is moved to the CPUs of its hosts, and nothing else of it
changes. -/
theorem C111_leaf (J : Jax) (P : Process) (l l' : Leaf) (hm : NoMetadata l)
    (h : transformLeaf J P l = .ok l') : LeafOnHosts J.colo l l' := by
  cases l with
  | sharding s =>
    simp only [transformLeaf] at h
    split at h
    · cases h
    · next t ht => cases h; exact Or.inl ⟨s, t, rfl, rfl, ((C111_sharding J s t).1).mp ht⟩
  | spec s =>
    obtain ⟨shape, dtype, sh⟩ := s
    simp only [transformLeaf, specToCpu] at h
    cases sh with
    | none => cases h
    | some s =>
      simp only at h
      cases ht : cpuSharding J s with
      | error e => rw [ht] at h; cases h
      | ok t =>
        rw [ht] at h; cases h
        exact Or.inr (Or.inl ⟨shape, dtype, s, t, rfl, rfl, ((C111_sharding J s t).1).mp ht⟩)
  | args r =>
    have hm' : ∀ m, r.sharding ≠ .metadata m := fun m => hm r m rfl
    simp only [transformLeaf] at h
    split at h
    · cases h
    · next r' hr =>
      cases h
      refine Or.inr (Or.inr (Or.inl ⟨r, r', rfl, rfl, ?_⟩))
      cases hrep : r.replica with
      | none =>
        simp only [hrep, Option.isSome_none, Bool.false_eq_true, ↓reduceIte] at hr
        obtain ⟨a, b, c, d⟩ := convertArgs_onHosts J P r r' hm' hr
        exact ⟨a, c, d, Or.inl ⟨hrep, by rw [b, hrep]⟩⟩
      | some o =>
        simp only [hrep, Option.isSome_some, ↓reduceIte, convertReplicaArgs] at hr
        cases o with
        | none =>
          simp only at hr
          obtain ⟨a, b, c, d⟩ := convertArgs_onHosts J P r r' hm' hr
          exact ⟨a, c, d, Or.inr (Or.inl ⟨hrep, by rw [b, hrep]⟩)⟩
        | some s =>
          simp only at hr
          split at hr
          · cases hr
          · next m sp k hs =>
            obtain ⟨a, b, c, d⟩ := convertArgs_onHosts J P { r with replica := some (some (.named m sp k)) } r' hm' hr
            exact ⟨a, c, d, Or.inr (Or.inr ⟨s, _, hrep, b, ((C111_sharding J s _).1).mp hs⟩)⟩
          · cases hr
  | array a =>
    obtain ⟨shape, dtype, val, s⟩ := a
    simp only [transformLeaf, arrayToCpu] at h
    cases ht : cpuSharding J s with
    | error e => rw [ht] at h; cases h
    | ok t =>
      rw [ht] at h; cases h
      exact Or.inr (Or.inr (Or.inr (Or.inl ⟨shape, dtype, val, s, t, rfl, rfl,
        ((C111_sharding J s t).1).mp ht⟩)))
  | plain n =>
    simp only [transformLeaf] at h; cases h
    exact Or.inr (Or.inr (Or.inr (Or.inr ⟨n, rfl, rfl⟩)))

theorem mapM_ok {α β : Type} (f : α → Except Err β) (l : List α) (r : List β) :
    mapM f l = .ok r ↔ r.length = l.length ∧
      ∀ i (hi : i < l.length) (hr : i < r.length), f l[i] = .ok r[i] := by
  induction l generalizing r with
  | nil =>
    simp only [mapM, List.length_nil]
    constructor
    · intro h; cases h; exact ⟨rfl, fun i hi => by omega⟩
    · rintro ⟨h, _⟩; rw [List.length_eq_zero_iff.mp h]
  | cons x xs ih =>
    simp only [mapM]
    cases hx : f x with
    | error e =>
      simp only [reduceCtorEq, List.length_cons, false_iff]
      rintro ⟨hl, h⟩
      have := h 0 (by simp) (by omega)
      simp only [List.getElem_cons_zero] at this
      rw [hx] at this; cases this
    | ok y =>
      simp only []
      cases hxs : mapM f xs with
      | error e =>
        simp only [reduceCtorEq, List.length_cons, false_iff]
        rintro ⟨hl, h⟩
        cases r with
        | nil => simp at hl
        | cons z zs =>
          have : mapM f xs = .ok zs := (ih zs).mpr ⟨by simpa using hl, fun i hi hr =>
            h (i + 1) (by simpa using hi) (by simpa using hr)⟩
          rw [hxs] at this; cases this
      | ok ys =>
        simp only [Except.ok.injEq, List.length_cons]
        have hys := (ih ys).mp hxs
        constructor
        · rintro rfl
          refine ⟨by simp [hys.1], ?_⟩
          intro i hi hr
          cases i with
          | zero => exact hx
          | succ i => exact hys.2 i (by simpa using hi) (by simpa using hr)
        · rintro ⟨hl, h⟩
          cases r with
          | nil => simp at hl
          | cons z zs =>
            have h0 := h 0 (by simp) (by simp)
            simp only [List.getElem_cons_zero] at h0
            rw [hx] at h0; cases h0
            have : mapM f xs = .ok zs := (ih zs).mpr ⟨by simpa using hl, fun i hi hr =>
              h (i + 1) (by simpa using hi) (by simpa using hr)⟩
            rw [hxs] at this; cases this; rfl

theorem mapM_error {α β : Type} (f : α → Except Err β) (l : List α) (e : Err)
    (h : mapM f l = .error e) : ∃ x ∈ l, f x = .error e := by
  induction l with
  | nil => cases h
  | cons x xs ih =>
    simp only [mapM] at h
    cases hx : f x with
    | error e' => rw [hx] at h; cases h; exact ⟨x, List.mem_cons_self .., hx⟩
    | ok y =>
      simp only [hx] at h
      cases hxs : mapM f xs with
      | error e' =>
        rw [hxs] at h; cases h
        obtain ⟨z, hz, he⟩ := ih hxs
        exact ⟨z, List.mem_cons_of_mem _ hz, he⟩
      | ok ys => rw [hxs] at h; cases h

/-- C111: a tree keeps its structure, and each leaf is moved. -/
theorem C111_tree (J : Jax) (P : Process) (t t' : Tree Leaf) (hm : ∀ l ∈ t.leaves, NoMetadata l)
    (h : transformTree J P t = .ok t') :
    t'.treedef = t.treedef ∧ t'.leaves.length = t.leaves.length ∧
    ∀ i (hi : i < t.leaves.length) (hi' : i < t'.leaves.length),
      LeafOnHosts J.colo t.leaves[i] t'.leaves[i] := by
  simp only [transformTree, Tree.mapM] at h
  split at h
  · cases h
  · next l hl =>
    cases h
    obtain ⟨h1, h2⟩ := (mapM_ok _ _ _).mp hl
    exact ⟨rfl, h1, fun i hi hi' =>
      C111_leaf J P _ _ (hm _ (List.getElem_mem hi)) (h2 i hi hi')⟩

/-- A leaf whose shardings can all be moved. -/
def Movable : Leaf → Prop
  | .sharding s => Supported s
  | .spec s => ∃ sh, s.sharding = some sh ∧ Supported sh
  | .array a => Supported a.sharding
  | .args r =>
    (r.sharding = .none ∨ ∃ s, r.sharding = .jax s ∧ Supported s) ∧
    (∀ s, r.replica = some (some s) → ∃ m sp k, s = .named m sp k)
  | .plain _ => True

theorem cpuSharding_supported (J : Jax) (s : Sharding) (h : Supported s) :
    ∃ t, cpuSharding J s = .ok t := by
  cases ht : cpuSharding J s with
  | ok t => exact ⟨t, rfl⟩
  | error e => exact absurd h (((C111_sharding J s s).2).mp ⟨e, ht⟩)

theorem convertArgs_movable (J : Jax) (P : Process) (r : RestoreArgs)
    (h : r.sharding = .none ∨ ∃ s, r.sharding = .jax s ∧ Supported s) :
    ∃ r', convertArgs J P r = .ok r' := by
  rcases h with h | ⟨s, h, hs⟩
  · exact ⟨_, by simp only [convertArgs, h]; rfl⟩
  · obtain ⟨t, ht⟩ := cpuSharding_supported J s hs
    exact ⟨_, by simp only [convertArgs, h, ht]; rfl⟩

/-- C111: a tree is moved whenever all shardings in it are given and on one device or a
mesh. -/
theorem C111_movable (J : Jax) (P : Process) (t : Tree Leaf) (h : ∀ l ∈ t.leaves, Movable l) :
    ∃ t', transformTree J P t = .ok t' := by
  have leaf : ∀ l, Movable l → ∃ l', transformLeaf J P l = .ok l' := by
    intro l hl
    cases l with
    | sharding s =>
      obtain ⟨t, ht⟩ := cpuSharding_supported J s hl
      exact ⟨_, by simp only [transformLeaf, ht]; rfl⟩
    | spec s =>
      obtain ⟨sh, h1, h2⟩ := hl
      obtain ⟨t, ht⟩ := cpuSharding_supported J sh h2
      exact ⟨_, by simp only [transformLeaf, specToCpu, h1, ht]; rfl⟩
    | array a =>
      obtain ⟨t, ht⟩ := cpuSharding_supported J a.sharding hl
      exact ⟨_, by simp only [transformLeaf, arrayToCpu, ht]; rfl⟩
    | args r =>
      obtain ⟨h1, h2⟩ := hl
      cases hrep : r.replica with
      | none =>
        obtain ⟨r', hr⟩ := convertArgs_movable J P r h1
        exact ⟨_, by simp only [transformLeaf, hrep, Option.isSome_none, Bool.false_eq_true,
          ↓reduceIte, hr]; rfl⟩
      | some o =>
        cases o with
        | none =>
          obtain ⟨r', hr⟩ := convertArgs_movable J P r h1
          exact ⟨_, by simp only [transformLeaf, hrep, Option.isSome_some, ↓reduceIte,
            convertReplicaArgs, hr]; rfl⟩
        | some s =>
          obtain ⟨m, sp, k, rfl⟩ := h2 s hrep
          obtain ⟨r', hr⟩ := convertArgs_movable J P
            { r with replica := some (some (.named (cpuMesh J m) sp k)) } h1
          exact ⟨_, by simp only [transformLeaf, hrep, Option.isSome_some, ↓reduceIte,
            convertReplicaArgs, cpuSharding, hr]; rfl⟩
    | plain n => exact ⟨_, rfl⟩
  simp only [transformTree, Tree.mapM]
  cases hm : mapM (transformLeaf J P) t.leaves with
  | ok l => exact ⟨_, rfl⟩
  | error e =>
    obtain ⟨x, hx, he⟩ := mapM_error _ _ _ hm
    obtain ⟨l', hl'⟩ := leaf x (h x hx)
    rw [he] at hl'; cases hl'

/-- C111: arrays copied to the CPUs and back with their own specifications are what and
where they were. -/
theorem C111_back (J : Jax) (P : Process) (td : Nat) (tr : Bool) (arrays : List Arr)
    (hs : ∀ a ∈ arrays, Supported a.sharding) :
    ∃ c, toColocated J P ⟨td, tr, arrays.map .arr⟩ = .ok c ∧
      c.treedef = td ∧ c.leaves.length = arrays.length ∧
      (∀ i (h : i < arrays.length) (h' : i < c.leaves.length),
        c.leaves[i].val = arrays[i].val ∧ c.leaves[i].shape = arrays[i].shape ∧
        c.leaves[i].dtype = arrays[i].dtype ∧
        OnHosts J.colo arrays[i].sharding c.leaves[i].sharding) ∧
      toFinal c ⟨td, tr, arrays.map (fun a => ⟨a.shape, a.dtype, some a.sharding⟩)⟩ =
        .ok ⟨td, tr, arrays⟩ := by
  have key : ∀ l : List Arr, (∀ a ∈ l, Supported a.sharding) → ∃ c : List Arr,
      mapM (inputToCpu J P) (l.map .arr) = .ok c ∧ c.length = l.length ∧
      (∀ i (h : i < l.length) (h' : i < c.length),
        c[i].val = l[i].val ∧ c[i].shape = l[i].shape ∧ c[i].dtype = l[i].dtype ∧
        OnHosts J.colo l[i].sharding c[i].sharding) ∧
      List.zipWith putFinal c (l.map (fun a => ⟨a.shape, a.dtype, some a.sharding⟩)) = l := by
    intro l
    induction l with
    | nil => intro _; exact ⟨[], rfl, rfl, fun i h => absurd h (by simp), rfl⟩
    | cons a l ih =>
      intro h
      obtain ⟨c, h1, h2, h3, h4⟩ := ih (fun x hx => h x (List.mem_cons_of_mem _ hx))
      obtain ⟨t, ht⟩ := cpuSharding_supported J a.sharding (h a (List.mem_cons_self ..))
      refine ⟨{ a with sharding := t } :: c, ?_, by simp [h2], ?_, ?_⟩
      · simp only [List.map_cons, mapM, inputToCpu, arrayToCpu, ht, h1]
      · intro i hi hi'
        cases i with
        | zero => exact ⟨rfl, rfl, rfl, ((C111_sharding J _ t).1).mp ht⟩
        | succ i => exact h3 i (by simpa using hi) (by simpa using hi')
      · simp only [List.map_cons, List.zipWith_cons_cons, h4, putFinal]
  obtain ⟨c, h1, h2, h3, h4⟩ := key arrays hs
  refine ⟨⟨td, tr, c⟩, ?_, rfl, h2, h3, ?_⟩
  · simp only [toColocated, Tree.mapM, h1]
  · simp only [toFinal, h2, List.length_map, and_self, ↓reduceIte, h4]

/-! ### Callbacks -/

/-- The shape of the part of an array of a given shape that slices cut out. -/
inductive ShardShape : List Idx → List Nat → List Nat → Prop
  | nil : ShardShape [] [] []
  | cons (a b : Option Nat) (n lo hi : Nat) (is : List Idx) (ns ss : List Nat) :
      (a = none → lo = 0) → (∀ x, a = some x → lo = x) →
      (b = none → hi = n) → (∀ x, b = some x → hi = x) →
      ShardShape is ns ss → ShardShape (.slice a b :: is) (n :: ns) ((hi - lo) :: ss)

/-- C111: the zeros made for a shard have exactly the shape of the shard. -/
theorem C111_zeros (is : List Idx) (ns ss : List Nat) (h : ShardShape is ns ss) :
    zerosShape is ns = ss := by
  induction h with
  | nil => rfl
  | cons a b n lo hi is ns ss h1 h2 h3 h4 _ ih =>
    simp only [zerosShape, ih, List.cons.injEq, and_true]
    have ha : a.getD 0 = lo := by
      cases a with
      | none => exact (h1 rfl).symm
      | some x => exact (h2 x rfl).symm
    have hb : b.getD n = hi := by
      cases b with
      | none => exact (h3 rfl).symm
      | some x => exact (h4 x rfl).symm
    rw [ha, hb]

theorem C111_zeros_nonvacuous :
    ShardShape [.slice (some 2) (some 4), .slice none none] [8, 3] [2, 3] :=
  ShardShape.cons (some 2) (some 4) 8 2 4 _ _ _ (by simp) (by simp) (by simp) (by simp)
    (ShardShape.cons none none 3 0 3 _ _ _ (by simp) (by simp) (by simp) (by simp) .nil)

/-- C111 (finding): the array "with the same shape as `like`, filled with `value`" can be
made only for arrays without dimensions: for any other, what is given for a shard never
has the shape of the shard. -/
theorem C111_scalar_fails (is : List Idx) (ns ss : List Nat) (h : ShardShape is ns ss) :
    scalarShape is = ss ↔ ns = [] := by
  cases h <;> simp [scalarShape]

/-! ### Findings -/

/-- A CPU whose text shows its global id, one digit. -/
def cpuDev (obj client id : Nat) (global : Char) : Dev :=
  ⟨obj, client, id, cpu, "CpuDevice[PjRtIFRTDeviceId=".toList ++ [global] ++ "]".toList⟩

/-- A process with the devices of one client, number 1. -/
def oneClient (ds : List Dev) : Process := ⟨ds, [1], fun c => if c = 1 then ds else [], ds⟩

/-- The second of two hosts with two CPUs each: it has the global ids 2 and 3, and the local
ids 0 and 1. -/
def second : Process := oneClient [cpuDev 12 1 0 '2', cpuDev 13 1 1 '3']

theorem oneObject_second : OneObject second := by
  have hv : ∀ d, Visible second d → d = cpuDev 12 1 0 '2' ∨ d = cpuDev 13 1 1 '3' := by
    rintro d (⟨l, ls, hl, h⟩ | ⟨b, hb, h⟩)
    · simp only [second, oneClient] at hl h
      cases hl
      simpa [cpuDev] using h
    · simp only [second, oneClient, List.mem_singleton] at hb h
      subst hb
      simpa using h
  intro d d' hd hd' _ hi _
  rcases hv d hd with rfl | rfl <;> rcases hv d' hd' with rfl | rfl <;>
    first | rfl | (simp [cpuDev] at hi)

/-- C111 (finding): ids of CPUs that a worker does not see are not reported as such if they
happen to be local ids of others: the second of two hosts takes the global ids 0 and 1, which
are CPUs of the first, for its own CPUs 2 and 3. -/
theorem C111_invisible_fails :
    OneObject second ∧
    resolve second [0, 1] = .ok [cpuDev 12 1 0 '2', cpuDev 13 1 1 '3'] ∧
    resolve second [2, 3] = .ok [cpuDev 12 1 0 '2', cpuDev 13 1 1 '3'] ∧
    ¬ (∃ d, Visible second d ∧ (ShowsId d.repr 0 ∨ ShowsId d.repr 1)) := by
  refine ⟨oneObject_second, by rfl, by rfl, ?_⟩
  rintro ⟨d, hv, h⟩
  have hd : d = cpuDev 12 1 0 '2' ∨ d = cpuDev 13 1 1 '3' := by
    rcases hv with ⟨l, ls, hl, h⟩ | ⟨b, hb, h⟩
    · simp only [second, oneClient] at hl h
      cases hl
      simpa [cpuDev] using h
    · simp only [second, oneClient, List.mem_singleton] at hb h
      subst hb
      simpa using h
  rw [← C111_shows, ← C111_shows] at h
  rcases hd with rfl | rfl
  · have : extractId (cpuDev 12 1 0 '2').repr = some 2 := by decide +kernel
    rw [this] at h; simp at h
  · have : extractId (cpuDev 13 1 1 '3').repr = some 3 := by decide +kernel
    rw [this] at h; simp at h

theorem C111_resolve_nonvacuous :
    OneObject second ∧ ¬ Ambiguous second ∧ Names second 2 (cpuDev 12 1 0 '2') ∧
    Names second 0 (cpuDev 12 1 0 '2') ∧
    resolve second [7, 2, 9] = .error (.notVisible [7, 9]) ∧
    (∃ e, cpuDeviceMap (oneClient [cpuDev 12 1 0 '1', cpuDev 13 1 1 '0']) = .error e) := by
  have hm : cpuDeviceMap second = .ok [(1, cpuDev 13 1 1 '3'), (0, cpuDev 12 1 0 '2'),
    (3, cpuDev 13 1 1 '3'), (2, cpuDev 12 1 0 '2')] := by rfl
  refine ⟨oneObject_second, ?_, ?_, ?_, by rfl, ⟨.ambiguous 0, by rfl⟩⟩
  · intro h
    obtain ⟨e, he⟩ := (C111_ambiguous _ oneObject_second).mpr h
    rw [hm] at he; cases he
  · exact (C111_lookup _ oneObject_second _ hm _ _).mp (by decide +kernel)
  · exact (C111_lookup _ oneObject_second _ hm _ _).mp (by decide +kernel)

/-- The accelerators of the controller. -/
def tpu (obj id : Nat) : Dev := ⟨obj, 0, id, "tpu".toList, "TpuDevice".toList⟩

/-- Accelerators 0 and 1 are on the second host: the controller knows its CPUs under the
global ids 2 and 3. -/
def exampleJax : Jax :=
  ⟨fun d => if d.platform == cpu then d else
    if d.id = 0 then ⟨22, 5, 2, cpu, []⟩ else ⟨23, 5, 3, cpu, []⟩⟩

def exampleController : Process := oneClient [tpu 0 0, tpu 1 1]

theorem C111_mesh_nonvacuous :
    unreduceMesh second (reduceMesh exampleJax ⟨[tpu 1 1, tpu 0 0], [2], 0, 0⟩) =
      .ok ⟨[cpuDev 13 1 1 '3', cpuDev 12 1 0 '2'], [2], 0, 0⟩ ∧
    uniqueCpus exampleJax [tpu 1 1, tpu 0 0, tpu 2 1] =
      [⟨23, 5, 3, cpu, []⟩, ⟨22, 5, 2, cpu, []⟩] := by
  exact ⟨by rfl, by decide +kernel⟩

/-- C111 (finding): a mesh given as a mesh reaches the right CPUs of the worker, but the same
mesh given as sharding metadata does not: the global ids in it are looked up among the local
ids of the worker, and there restoring fails. -/
theorem C111_metadata_fails :
    ∃ r m',
      transformLeaf exampleJax exampleController
        (.args ⟨none, .metadata (.named [2] 0 0 0 (some [0, 1])), none, 0⟩) =
          .ok (.args r) ∧ r.sharding = .metadata m' ∧
      m'.toJax second = .error .devicesDiffer ∧
      unreduceMesh second (reduceMesh exampleJax ⟨[tpu 0 0, tpu 1 1], [2], 0, 0⟩) =
        .ok ⟨[cpuDev 12 1 0 '2', cpuDev 13 1 1 '3'], [2], 0, 0⟩ := by
  exact ⟨⟨none, .metadata (.named [2] 0 0 0 (some [2, 3])), none, 0⟩, _, by rfl, rfl, by rfl,
    by rfl⟩

/-- C111 (finding): a specification without a sharding cannot be moved, although its
sharding is optional; nor can restore arguments with a layout. -/
theorem C111_unspecified_fails (J : Jax) (P : Process) (shape : List Nat) (dtype n rest : Nat)
    (m : Option Mesh) :
    transformLeaf J P (.spec ⟨shape, dtype, none⟩) = .error .shardingType ∧
    transformLeaf J P (.args ⟨m, .format n, none, rest⟩) = .error .shardingType :=
  ⟨rfl, rfl⟩

theorem C111_tree_nonvacuous :
    transformTree exampleJax exampleController ⟨5, true, [
      .sharding (.single (tpu 0 0) none),
      .spec ⟨[4], 1, some (.named ⟨[tpu 0 0, tpu 1 1], [2], 3, 0⟩ 7 (some 2))⟩,
      .args ⟨none, .jax (.single (tpu 1 1) none),
        some (some (.named ⟨[tpu 0 0], [1], 3, 0⟩ 7 none)), 9⟩,
      .plain 3]⟩ =
    .ok ⟨5, true, [
      .sharding (.single ⟨22, 5, 2, cpu, []⟩ none),
      .spec ⟨[4], 1, some (.named ⟨[⟨22, 5, 2, cpu, []⟩, ⟨23, 5, 3, cpu, []⟩], [2], 3, 0⟩ 7
        (some 2))⟩,
      .args ⟨none, .jax (.single ⟨23, 5, 3, cpu, []⟩ none),
        some (some (.named ⟨[⟨22, 5, 2, cpu, []⟩], [1], 3, 0⟩ 7 none)), 9⟩,
      .plain 3]⟩ := by
  rfl

end Verif.Transport
