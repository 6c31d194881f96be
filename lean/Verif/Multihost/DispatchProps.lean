/-
C112: A function dispatched to the hosts runs once, on the given arrays, and its result
arrives as specified.

Specification and theorems about `Verif.Multihost.Dispatch`.
-/
import Verif.Multihost.Dispatch
import Verif.Multihost.TransportProps

namespace Verif.Transport

/-! ### Specification -/

/-- Two arrays are the same but for where they are: `b` is on the CPUs of the hosts of `a`. -/
def ArrOnHosts (host : Dev → Dev) (a b : Arr) : Prop :=
  b.shape = a.shape ∧ b.dtype = a.dtype ∧ b.val = a.val ∧ OnHosts host a.sharding b.sharding

/-- A result for the specification `s` as the function must return it: on the CPUs. -/
def CpuResult (host : Dev → Dev) (s : Spec) (a : Arr) : Prop :=
  a.shape = s.shape ∧ a.dtype = s.dtype ∧
    ∃ sh, s.sharding = some sh ∧ OnHosts host sh a.sharding

/-- The devices of a sharding on one device or a mesh. -/
inductive IsOn : Sharding → List Dev → Prop
  | single (d k) : IsOn (.single d k) [d]
  | named (ds shape axes types spec k) : IsOn (.named ⟨ds, shape, axes, types⟩ spec k) ds

/-! ### Lemmas -/

theorem toCpu_devices (J : Jax) (s t : Sharding) (h : cpuSharding J s = .ok t) :
    t.devices = s.devices.map J.colo := by
  cases s <;> simp only [cpuSharding, cpuMesh] at h <;> cases h <;> rfl

theorem isOn_devices (s : Sharding) (ds : List Dev) (h : IsOn s ds) : s.devices = ds := by
  cases h <;> rfl

theorem isOn_supported (s : Sharding) (ds : List Dev) (h : IsOn s ds) : Supported s := by
  cases h with
  | single d k => exact Or.inl ⟨_, _, rfl⟩
  | named => exact Or.inr ⟨_, _, _, rfl⟩

theorem onHosts_fun (host : Dev → Dev) (s t t' : Sharding) (h : OnHosts host s t)
    (h' : OnHosts host s t') : t = t' := by
  have e1 := ((C111_sharding ⟨host⟩ s t).1).mpr h
  have e2 := ((C111_sharding ⟨host⟩ s t').1).mpr h'
  rw [e1] at e2; cases e2; rfl

theorem mem_insertById (d e : Dev) (l : List Dev) : e ∈ insertById d l ↔ e = d ∨ e ∈ l := by
  induction l with
  | nil => simp [insertById]
  | cons x l ih =>
    simp only [insertById]
    split
    · simp
    · simp only [List.mem_cons, ih]; grind

theorem mem_sortById (e : Dev) (l : List Dev) : e ∈ sortById l ↔ e ∈ l := by
  induction l with
  | nil => simp [sortById]
  | cons d l ih => simp [sortById, mem_insertById, ih]

theorem length_insertById (d : Dev) (l : List Dev) : (insertById d l).length = l.length + 1 := by
  induction l with
  | nil => rfl
  | cons x l ih => simp only [insertById]; split <;> simp [ih]

theorem sorted_insert (d : Dev) (l : List Dev) (h : l.Pairwise (fun a b => a.id ≤ b.id)) :
    (insertById d l).Pairwise (fun a b => a.id ≤ b.id) := by
  induction l with
  | nil => simp [insertById]
  | cons x l ih =>
    rw [List.pairwise_cons] at h
    simp only [insertById]
    split
    · next hle =>
      rw [List.pairwise_cons]
      refine ⟨?_, List.pairwise_cons.mpr h⟩
      intro b hb
      rcases List.mem_cons.mp hb with rfl | hb
      · exact hle
      · exact Nat.le_trans hle (h.1 b hb)
    · next hle =>
      rw [List.pairwise_cons]
      refine ⟨?_, ih h.2⟩
      intro b hb
      rcases (mem_insertById _ _ _).mp hb with rfl | hb
      · omega
      · exact h.1 b hb

theorem sorted_sort (l : List Dev) : (sortById l).Pairwise (fun a b => a.id ≤ b.id) := by
  induction l with
  | nil => exact List.Pairwise.nil
  | cons d l ih => exact sorted_insert d _ ih

theorem nodup_insert (d : Dev) (l : List Dev) (h : l.Nodup) (hd : d ∉ l) :
    (insertById d l).Nodup := by
  induction l with
  | nil => simp [insertById]
  | cons x l ih =>
    rw [List.nodup_cons] at h
    simp only [List.mem_cons, not_or] at hd
    simp only [insertById]
    split
    · rw [List.nodup_cons, List.nodup_cons]
      exact ⟨by simp [hd.1, hd.2], h⟩
    · rw [List.nodup_cons]
      refine ⟨?_, ih h.2 hd.2⟩
      rw [mem_insertById]
      rintro (hx | hx)
      · exact hd.1 hx.symm
      · exact h.1 hx

theorem nodup_sort (l : List Dev) (h : l.Nodup) : (sortById l).Nodup := by
  induction l with
  | nil => exact List.nodup_nil
  | cons d l ih =>
    rw [List.nodup_cons] at h
    exact nodup_insert d _ (ih h.2) (by rw [mem_sortById]; exact h.1)

theorem mem_dedup (e : Dev) (l : List Dev) : e ∈ dedup l ↔ e ∈ l := by
  induction l with
  | nil => simp [dedup]
  | cons d l ih =>
    simp only [dedup, List.mem_cons, List.mem_filter, ih, bne_iff_ne]
    grind

theorem nodup_dedup (l : List Dev) : (dedup l).Nodup := by
  induction l with
  | nil => exact List.nodup_nil
  | cons d l ih =>
    simp only [dedup, List.nodup_cons]
    exact ⟨by simp, ih.filter _⟩

theorem insert_map (f : Dev → Dev) (d : Dev) (l : List Dev)
    (h : ∀ e ∈ l, (d.id ≤ e.id ↔ (f d).id ≤ (f e).id)) :
    (insertById d l).map f = insertById (f d) (l.map f) := by
  induction l with
  | nil => rfl
  | cons x l ih =>
    have hx := h x (List.mem_cons_self ..)
    have ih' := ih (fun e he => h e (List.mem_cons_of_mem _ he))
    by_cases hle : d.id ≤ x.id
    · have hle' : (f d).id ≤ (f x).id := hx.mp hle
      simp only [insertById, hle, ↓reduceIte, List.map_cons, hle']
    · have hle' : ¬ (f d).id ≤ (f x).id := fun hh => hle (hx.mpr hh)
      simp only [insertById, hle, ↓reduceIte, List.map_cons, hle', ih']

theorem sort_map (f : Dev → Dev) (l : List Dev)
    (h : ∀ d ∈ l, ∀ e ∈ l, (d.id ≤ e.id ↔ (f d).id ≤ (f e).id)) :
    (sortById l).map f = sortById (l.map f) := by
  induction l with
  | nil => rfl
  | cons d l ih =>
    simp only [sortById, List.map_cons]
    rw [insert_map, ih (fun a ha b hb => h a (List.mem_cons_of_mem _ ha) b
      (List.mem_cons_of_mem _ hb))]
    intro e he
    exact h d (List.mem_cons_self ..) e (List.mem_cons_of_mem _ ((mem_sortById _ _).mp he))

theorem dedup_map (f : Dev → Dev) (l : List Dev)
    (h : ∀ d ∈ l, ∀ e ∈ l, f d = f e → d = e) : (dedup l).map f = dedup (l.map f) := by
  induction l with
  | nil => rfl
  | cons d l ih =>
    simp only [dedup, List.map_cons]
    rw [← ih (fun a ha b hb => h a (List.mem_cons_of_mem _ ha) b (List.mem_cons_of_mem _ hb)),
      List.filter_map]
    congr 2
    apply List.filter_congr
    intro e he
    have he' := (mem_dedup _ _).mp he
    by_cases hed : e = d
    · subst hed; simp
    · have : f e ≠ f d := fun hh =>
        hed (h e (List.mem_cons_of_mem _ he') d (List.mem_cons_self ..) hh)
      simp only [Function.comp]
      rw [bne_iff_ne.mpr hed, bne_iff_ne.mpr this]

/-! ### Calls -/

/-- C112: the function is called at most once, and not at all if the dispatch cannot be
prepared; an error it raises is raised by the dispatch. -/
theorem C112_once (J : Jax) (P : Process) (func : Call → Except Err (Tree Arr))
    (input : Option (Tree Inp)) (specs : Option (Tree Spec)) (args kwargs : Tree Leaf) :
    ((dispatch J P func input specs args kwargs).2 = [] ∧
      ∃ e, (dispatch J P func input specs args kwargs).1 = .error e) ∨
    ∃ call, (dispatch J P func input specs args kwargs).2 = [call] ∧
      (call.input.isSome = input.isSome) ∧
      ∀ e, func call = .error e →
        (dispatch J P func input specs args kwargs).1 = .error e := by
  simp only [dispatch]
  cases hp : prepare J P input specs args kwargs with
  | error e => exact Or.inl ⟨rfl, e, rfl⟩
  | ok p =>
    refine Or.inr ⟨⟨if input.isSome then some p.inp else none, p.args, p.kwargs⟩, rfl, ?_, ?_⟩
    · cases input <;> rfl
    · intro e he
      simp only [wrapperResult, he]

theorem prepare_ok (J : Jax) (P : Process) (input : Option (Tree Inp))
    (specs : Option (Tree Spec)) (args kwargs : Tree Leaf) (p : Prep)
    (h : prepare J P input specs args kwargs = .ok p) :
    ∃ inputs, chooseInput P input specs = .ok inputs ∧
      transformTree J P args = .ok p.args ∧ transformTree J P kwargs = .ok p.kwargs ∧
      chooseSpecs inputs specs = .ok p.specs ∧
      p.specs.mapM (specToCpu J) = .ok p.cpuSpecs ∧
      toColocated J P inputs = .ok p.inp ∧ sameDevices p.inp.leaves = true := by
  simp only [prepare] at h
  cases h1 : chooseInput P input specs with
  | error e => rw [h1] at h; cases h
  | ok inputs =>
  simp only [h1] at h
  cases h2 : transformTree J P args with
  | error e => rw [h2] at h; cases h
  | ok a =>
  simp only [h2] at h
  cases h3 : transformTree J P kwargs with
  | error e => rw [h3] at h; cases h
  | ok k =>
  simp only [h3] at h
  cases h4 : chooseSpecs inputs specs with
  | error e => rw [h4] at h; cases h
  | ok sp =>
  simp only [h4] at h
  cases h5 : sp.mapM (specToCpu J) with
  | error e => rw [h5] at h; cases h
  | ok cs =>
  simp only [h5] at h
  cases h6 : toColocated J P inputs with
  | error e => rw [h6] at h; cases h
  | ok inp =>
  simp only [h6] at h
  split at h
  · next hs => cases h; exact ⟨inputs, rfl, rfl, rfl, h4, h5, h6, hs⟩
  · cases h

theorem prepare_eq (J : Jax) (P : Process) (input : Option (Tree Inp))
    (specs : Option (Tree Spec)) (args kwargs a k : Tree Leaf) (inputs : Tree Inp)
    (sp cs : Tree Spec) (inp : Tree Arr)
    (h1 : chooseInput P input specs = .ok inputs) (h2 : transformTree J P args = .ok a)
    (h3 : transformTree J P kwargs = .ok k) (h4 : chooseSpecs inputs specs = .ok sp)
    (h5 : sp.mapM (specToCpu J) = .ok cs) (h6 : toColocated J P inputs = .ok inp)
    (h7 : sameDevices inp.leaves = true) :
    prepare J P input specs args kwargs = .ok ⟨inp, a, k, sp, cs⟩ := by
  simp only [prepare, h1, h2, h3, h4, h5, h6, h7, ↓reduceIte]

theorem colocated_arrays (J : Jax) (P : Process) (t : Tree Inp) (c : Tree Arr)
    (h : toColocated J P t = .ok c) :
    c.treedef = t.treedef ∧ c.leaves.length = t.leaves.length ∧
    ∀ i (hi : i < t.leaves.length) (hc : i < c.leaves.length) a, t.leaves[i] = .arr a →
      ArrOnHosts J.colo a c.leaves[i] := by
  simp only [toColocated, Tree.mapM] at h
  split at h
  · cases h
  · next l hl =>
    cases h
    obtain ⟨h1, h2⟩ := (mapM_ok _ _ _).mp hl
    refine ⟨rfl, h1, ?_⟩
    intro i hi hc a ha
    have h3 := h2 i hi hc
    rw [ha] at h3
    simp only [inputToCpu, arrayToCpu] at h3
    cases ht : cpuSharding J a.sharding with
    | error e => rw [ht] at h3; cases h3
    | ok s =>
      rw [ht] at h3
      simp only [Except.ok.injEq] at h3
      simp only [← h3]
      exact ⟨rfl, rfl, rfl, ((C111_sharding J _ s).1).mp ht⟩

/-- C112: what the function is called with: copies of the input arrays on the CPUs of their
hosts with their values, if inputs were given, and the arguments with their shardings moved
likewise. -/
theorem C112_call (J : Jax) (P : Process) (func : Call → Except Err (Tree Arr))
    (input : Option (Tree Inp)) (specs : Option (Tree Spec)) (args kwargs : Tree Leaf)
    (ha : ∀ l ∈ args.leaves, NoMetadata l) (hk : ∀ l ∈ kwargs.leaves, NoMetadata l)
    (call : Call) (h : call ∈ (dispatch J P func input specs args kwargs).2) :
    (input = none → call.input = none) ∧
    (∀ t, input = some t → ∃ c, call.input = some c ∧ c.treedef = t.treedef ∧
      c.leaves.length = t.leaves.length ∧
      ∀ i (hi : i < t.leaves.length) (hc : i < c.leaves.length) a, t.leaves[i] = .arr a →
        ArrOnHosts J.colo a c.leaves[i]) ∧
    (call.args.treedef = args.treedef ∧ call.args.leaves.length = args.leaves.length ∧
      ∀ i (hi : i < args.leaves.length) (hi' : i < call.args.leaves.length),
        LeafOnHosts J.colo args.leaves[i] call.args.leaves[i]) ∧
    (call.kwargs.treedef = kwargs.treedef ∧ call.kwargs.leaves.length = kwargs.leaves.length ∧
      ∀ i (hi : i < kwargs.leaves.length) (hi' : i < call.kwargs.leaves.length),
        LeafOnHosts J.colo kwargs.leaves[i] call.kwargs.leaves[i]) := by
  simp only [dispatch] at h
  cases hp : prepare J P input specs args kwargs with
  | error e => simp [hp] at h
  | ok p =>
    simp only [hp, List.mem_singleton] at h
    subst h
    obtain ⟨inputs, h1, h2, h3, _, _, h6, _⟩ := prepare_ok J P input specs args kwargs p hp
    refine ⟨?_, ?_, C111_tree J P args _ ha h2, C111_tree J P kwargs _ hk h3⟩
    · intro hn; simp [hn]
    · intro t ht
      subst ht
      simp only [chooseInput, Except.ok.injEq] at h1
      subst h1
      exact ⟨p.inp, by simp, colocated_arrays J P t p.inp h6⟩

/-! ### Results -/

theorem specToCpu_ok (J : Jax) (s s' : Spec) (h : specToCpu J s = .ok s') :
    s'.shape = s.shape ∧ s'.dtype = s.dtype ∧
    ∃ sh sh', s.sharding = some sh ∧ s'.sharding = some sh' ∧ OnHosts J.colo sh sh' := by
  simp only [specToCpu] at h
  split at h
  · cases h
  · next sh hsh =>
    split at h
    · cases h
    · next sh' hsh' =>
      cases h
      exact ⟨rfl, rfl, sh, sh', hsh, rfl, ((C111_sharding J sh sh').1).mp hsh'⟩

theorem fits_iff (J : Jax) (s s' : Spec) (a : Arr) (h : specToCpu J s = .ok s') :
    fits a s' = true ↔ CpuResult J.colo s a := by
  obtain ⟨h1, h2, sh, sh', h3, h4, h5⟩ := specToCpu_ok J s s' h
  simp only [fits, h1, h2, h4, Bool.and_eq_true, beq_iff_eq, Option.some.injEq, CpuResult]
  constructor
  · rintro ⟨⟨a1, a2⟩, a3⟩
    exact ⟨a1, a2, sh, h3, by rw [← a3]; exact h5⟩
  · rintro ⟨a1, a2, x, hx, ho⟩
    rw [h3] at hx; cases hx
    exact ⟨⟨a1, a2⟩, onHosts_fun _ _ _ _ h5 ho⟩

theorem fitsTree_iff (J : Jax) (sp cs : Tree Spec) (r : Tree Arr)
    (h : sp.mapM (specToCpu J) = .ok cs) :
    fitsTree r cs = true ↔
      r.treedef = sp.treedef ∧ r.leaves.length = sp.leaves.length ∧
      ∀ i (hr : i < r.leaves.length) (hs : i < sp.leaves.length),
        CpuResult J.colo sp.leaves[i] r.leaves[i] := by
  simp only [Tree.mapM] at h
  split at h
  · cases h
  · next l hl =>
    cases h
    obtain ⟨h1, h2⟩ := (mapM_ok _ _ _).mp hl
    simp only [fitsTree, Bool.and_eq_true, beq_iff_eq, h1, and_assoc]
    constructor
    · rintro ⟨a, b, c⟩
      refine ⟨a, b, ?_⟩
      intro i hr hs
      rw [List.all_eq_true] at c
      have hlen : i < (r.leaves.zip l).length := by simp [List.length_zip]; omega
      have := c _ (List.getElem_mem hlen)
      simp only [List.getElem_zip] at this
      exact (fits_iff J _ _ _ (h2 i hs (by omega))).mp this
    · rintro ⟨a, b, c⟩
      refine ⟨a, b, ?_⟩
      rw [List.all_eq_true]
      intro x hx
      obtain ⟨i, hi, rfl⟩ := List.getElem_of_mem hx
      simp only [List.length_zip] at hi
      simp only [List.getElem_zip]
      exact (fits_iff J _ _ _ (h2 i (by omega) (by omega))).mpr (c i (by omega) (by omega))

/-- C112: with specifications, a result that arrives is what the function returned: in the
specified structure, with the specified shapes, dtypes and shardings, and with the values the
function returned. -/
theorem C112_result (J : Jax) (P : Process) (func : Call → Except Err (Tree Arr))
    (input : Option (Tree Inp)) (sp : Tree Spec) (htrue : sp.truthy = true)
    (args kwargs : Tree Leaf) (r : Tree Arr)
    (h : (dispatch J P func input (some sp) args kwargs).1 = .ok r) :
    ∃ call t, (dispatch J P func input (some sp) args kwargs).2 = [call] ∧ func call = .ok t ∧
      r.treedef = sp.treedef ∧ r.leaves.length = sp.leaves.length ∧
      t.leaves.length = r.leaves.length ∧
      ∀ i (hr : i < r.leaves.length) (hs : i < sp.leaves.length) (ht : i < t.leaves.length),
        r.leaves[i].shape = sp.leaves[i].shape ∧ r.leaves[i].dtype = sp.leaves[i].dtype ∧
        some r.leaves[i].sharding = sp.leaves[i].sharding ∧
        r.leaves[i].val = t.leaves[i].val := by
  simp only [dispatch] at h ⊢
  cases hp : prepare J P input (some sp) args kwargs with
  | error e => simp [hp] at h
  | ok p =>
    simp only [hp] at h ⊢
    obtain ⟨inputs, _, _, _, h4, h5, _, _⟩ := prepare_ok J P input (some sp) args kwargs p hp
    simp only [chooseSpecs, htrue, ↓reduceIte, Except.ok.injEq] at h4
    simp only [wrapperResult, Option.isNone_some, Bool.false_eq_true, ↓reduceIte] at h
    refine ⟨⟨if input.isSome then some p.inp else none, p.args, p.kwargs⟩, ?_⟩
    cases hf : func ⟨if input.isSome then some p.inp else none, p.args, p.kwargs⟩ with
    | error e => simp [hf] at h
    | ok t =>
      simp only [hf] at h
      refine ⟨t, rfl, rfl, ?_⟩
      rw [← h4] at h5
      split at h
      · next hfit =>
        obtain ⟨f1, f2, f3⟩ := (fitsTree_iff J sp _ t h5).mp hfit
        rw [← h4] at h
        simp only [toFinal, f1, f2, and_self, ↓reduceIte, Except.ok.injEq] at h
        subst h
        refine ⟨rfl, by simp [f2], by simp [f2], ?_⟩
        intro i hr hs ht
        simp only [List.getElem_zipWith]
        obtain ⟨c1, c2, sh, c3, c4⟩ := f3 i ht hs
        simp only [putFinal, c3]
        exact ⟨c1, c2, trivial, trivial⟩
      · cases h

theorem mapM_total {α β : Type} (f : α → Except Err β) (l : List α)
    (h : ∀ x ∈ l, ∃ y, f x = .ok y) : ∃ r, mapM f l = .ok r := by
  cases hm : mapM f l with
  | ok r => exact ⟨r, rfl⟩
  | error e =>
    obtain ⟨x, hx, he⟩ := mapM_error _ _ _ hm
    obtain ⟨y, hy⟩ := h x hx
    rw [he] at hy; cases hy

theorem inputs_ready (J : Jax) (P : Process) (td : Nat) (tr : Bool) (arrays : List Arr)
    (ds : List Dev) (h : ∀ a ∈ arrays, IsOn a.sharding ds) :
    ∃ c, toColocated J P ⟨td, tr, arrays.map .arr⟩ = .ok c ∧ sameDevices c.leaves = true ∧
      ∀ b ∈ c.leaves, b.sharding.devices = ds.map J.colo := by
  obtain ⟨c, h1, h2, h3, h4, _⟩ := C111_back J P td tr arrays
    (fun a ha => isOn_supported _ _ (h a ha))
  have hall : ∀ b ∈ c.leaves, b.sharding.devices = ds.map J.colo := by
    intro b hb
    obtain ⟨i, hi, rfl⟩ := List.getElem_of_mem hb
    obtain ⟨_, _, _, ho⟩ := h4 i (by omega) hi
    have := toCpu_devices J _ _ (((C111_sharding J _ _).1).mpr ho)
    rw [this, isOn_devices _ _ (h _ (List.getElem_mem (by omega)))]
  refine ⟨c, h1, ?_, hall⟩
  cases hc : c.leaves with
  | nil => rfl
  | cons a as =>
    simp only [sameDevices, List.all_eq_true, beq_iff_eq]
    rw [hc] at hall
    intro b hb
    rw [hall b (List.mem_cons_of_mem _ hb), hall a (List.mem_cons_self ..)]

theorem specs_ready (J : Jax) (sp : Tree Spec)
    (h : ∀ s ∈ sp.leaves, ∃ sh, s.sharding = some sh ∧ Supported sh) :
    ∃ cs, sp.mapM (specToCpu J) = .ok cs := by
  obtain ⟨l, hl⟩ := mapM_total (specToCpu J) sp.leaves (by
    intro s hs
    obtain ⟨sh, h1, h2⟩ := h s hs
    obtain ⟨t, ht⟩ := cpuSharding_supported J sh h2
    exact ⟨_, by simp only [specToCpu, h1, ht]; rfl⟩)
  exact ⟨⟨sp.treedef, sp.truthy, l⟩, by simp only [Tree.mapM, hl]⟩

/-- C112: if all shardings can be moved, the input arrays are on one list of devices and the
function returns arrays as specified, on the CPUs, then the dispatch succeeds with them. -/
theorem C112_runs (J : Jax) (P : Process) (func : Call → Except Err (Tree Arr))
    (td : Nat) (tr : Bool) (arrays : List Arr) (ds : List Dev)
    (harr : ∀ a ∈ arrays, IsOn a.sharding ds)
    (sp : Tree Spec) (htrue : sp.truthy = true)
    (hsp : ∀ s ∈ sp.leaves, ∃ sh, s.sharding = some sh ∧ Supported sh)
    (args kwargs : Tree Leaf) (ha : ∀ l ∈ args.leaves, Movable l)
    (hk : ∀ l ∈ kwargs.leaves, Movable l)
    (hf : ∀ call, ∃ t, func call = .ok t ∧ t.treedef = sp.treedef ∧
      t.leaves.length = sp.leaves.length ∧
      ∀ i (ht : i < t.leaves.length) (hs : i < sp.leaves.length),
        CpuResult J.colo sp.leaves[i] t.leaves[i]) :
    ∃ r, (dispatch J P func (some ⟨td, tr, arrays.map .arr⟩) (some sp) args kwargs).1 = .ok r := by
  obtain ⟨a, h2⟩ := C111_movable J P args ha
  obtain ⟨k, h3⟩ := C111_movable J P kwargs hk
  obtain ⟨c, h6, h7, _⟩ := inputs_ready J P td tr arrays ds harr
  obtain ⟨cs, h5⟩ := specs_ready J sp hsp
  have hp := prepare_eq J P (some ⟨td, tr, arrays.map .arr⟩) (some sp) args kwargs a k
    ⟨td, tr, arrays.map .arr⟩ sp cs c rfl h2 h3
    (by simp only [chooseSpecs, htrue, ↓reduceIte]) h5 h6 h7
  simp only [dispatch, hp]
  obtain ⟨t, f1, f2, f3, f4⟩ := hf ⟨some c, a, k⟩
  have hfit : fitsTree t cs = true := (fitsTree_iff J sp cs t h5).mpr ⟨f2, f3, f4⟩
  simp only [wrapperResult, Option.isSome_some, ↓reduceIte, f1, Option.isNone_some,
    Bool.false_eq_true, hfit, toFinal, f2, f3, and_self]
  exact ⟨_, rfl⟩

/-- C112: without specifications the function is called once, its result is discarded, and
what comes back is the array `True`, replicated over the devices of the inputs, each once
and by their ids - provided the CPUs of the hosts have their ids in the order of those of
the devices. -/
theorem C112_discard (J : Jax) (P : Process) (func : Call → Except Err (Tree Arr))
    (td : Nat) (tr : Bool) (arrays : List Arr) (ds : List Dev) (hne : arrays ≠ [])
    (harr : ∀ a ∈ arrays, IsOn a.sharding ds)
    (hinj : ∀ d ∈ ds, ∀ e ∈ ds, J.colo d = J.colo e → d = e)
    (hord : ∀ d ∈ ds, ∀ e ∈ ds, (d.id ≤ e.id ↔ (J.colo d).id ≤ (J.colo e).id))
    (args kwargs : Tree Leaf) (ha : ∀ l ∈ args.leaves, Movable l)
    (hk : ∀ l ∈ kwargs.leaves, Movable l) (hf : ∀ call, ∃ t, func call = .ok t) :
    ∃ out : List Dev,
      (dispatch J P func (some ⟨td, tr, arrays.map .arr⟩) none args kwargs).1 =
        .ok ⟨0, true, [⟨[], boolD, trueD,
          .named ⟨out, [out.length], axisD, typesD⟩ specD none⟩]⟩ ∧
      (dispatch J P func (some ⟨td, tr, arrays.map .arr⟩) none args kwargs).2.length = 1 ∧
      out.Nodup ∧ out.Pairwise (fun a b => a.id ≤ b.id) ∧ ∀ d, d ∈ out ↔ d ∈ ds := by
  obtain ⟨a, h2⟩ := C111_movable J P args ha
  obtain ⟨k, h3⟩ := C111_movable J P kwargs hk
  obtain ⟨c, h6, h7, h8⟩ := inputs_ready J P td tr arrays ds harr
  obtain ⟨c', h6', hc1, hc2, hc3, _⟩ := C111_back J P td tr arrays
    (fun a ha => isOn_supported _ _ (harr a ha))
  rw [h6] at h6'
  cases h6'
  -- the devices of the inputs
  have hds : mapM Inp.deviceSet (arrays.map .arr) = .ok (arrays.map (fun _ => ds)) := by
    rw [mapM_ok]
    refine ⟨by simp, ?_⟩
    intro i hi hr
    simp only [List.getElem_map, Inp.deviceSet]
    rw [isOn_devices _ _ (harr _ (List.getElem_mem (by simpa using hi)))]
  have hflat : c.leaves.flatMap (fun a => a.sharding.devices)
      = ((arrays.map (fun _ => ds)).flatten).map J.colo := by
    rw [List.flatMap_def]
    have : c.leaves.map (fun a => a.sharding.devices) = arrays.map (fun _ => ds.map J.colo) := by
      apply List.ext_getElem
      · simp [hc2]
      · intro i h1 h2
        simp only [List.getElem_map]
        exact h8 _ (List.getElem_mem (by simpa using h1))
    rw [this, List.map_flatten, List.map_map]
    rfl
  have hmem : ∀ d, d ∈ (arrays.map (fun _ => ds)).flatten ↔ d ∈ ds := by
    intro d
    simp only [List.mem_flatten, List.mem_map]
    constructor
    · rintro ⟨l, ⟨_, _, rfl⟩, h⟩; exact h
    · intro h
      cases arrays with
      | nil => exact absurd rfl hne
      | cons x xs => exact ⟨ds, ⟨x, List.mem_cons_self .., rfl⟩, h⟩
  let S := sortById (dedup ((arrays.map (fun _ => ds)).flatten))
  have hS : ∀ d, d ∈ S ↔ d ∈ ds := by
    intro d; rw [mem_sortById, mem_dedup, hmem]
  have hmap : sortById (dedup (c.leaves.flatMap (fun a => a.sharding.devices))) = S.map J.colo := by
    rw [hflat, ← dedup_map, ← sort_map]
    · intro d hd e he
      rw [mem_dedup, hmem] at hd he
      exact hord d hd e he
    · intro d hd e he
      rw [hmem] at hd he
      exact hinj d hd e he
  have hp := prepare_eq J P (some ⟨td, tr, arrays.map .arr⟩) none args kwargs a k
    ⟨td, tr, arrays.map .arr⟩ (leafTree ⟨[], boolD, some (replicated S)⟩)
    (leafTree ⟨[], boolD, some (.named ⟨S.map J.colo, [S.length], axisD, typesD⟩ specD none)⟩)
    c rfl h2 h3 (by simp only [chooseSpecs, dummySharding, hds]; rfl) rfl h6 h7
  obtain ⟨t, ht⟩ := hf ⟨some c, a, k⟩
  refine ⟨S, ?_, ?_, nodup_sort _ (nodup_dedup _), sorted_sort _, hS⟩
  · simp only [dispatch, hp, Option.isSome_some, ↓reduceIte, wrapperResult, ht,
      Option.isNone_none, hmap]
    have : fitsTree (leafTree ⟨[], boolD, trueD, replicated (S.map J.colo)⟩)
        (leafTree ⟨[], boolD, some (.named ⟨S.map J.colo, [S.length], axisD, typesD⟩ specD none)⟩)
        = true := by
      simp [fitsTree, leafTree, fits, replicated]
    simp only [this, ↓reduceIte]
    rfl
  · simp only [dispatch, hp, List.length_cons, List.length_nil]

/-- C112: without inputs the function runs on exactly the devices of the mesh of the
specifications, in its order; with two different meshes it does not run. -/
theorem C112_devices (P : Process) (sp : Tree Spec) (s : Spec) (m : Mesh) (x : Nat)
    (k : Option Nat) (hs : s ∈ sp.leaves) (hm : s.sharding = some (.named m x k)) :
    (∀ t, chooseInput P none (some sp) = .ok t →
      ∃ a, t.leaves = [.arr a] ∧ IsOn a.sharding m.devices) ∧
    (∀ s' m' x' k', s' ∈ sp.leaves → s'.sharding = some (.named m' x' k') →
      m'.devices ≠ m.devices → chooseInput P none (some sp) = .error .multipleMeshes) := by
  have hmem : m.devices ∈ sp.leaves.filterMap Spec.meshDevices :=
    List.mem_filterMap.mpr ⟨s, hs, by simp only [Spec.meshDevices, hm]⟩
  cases hl : sp.leaves.filterMap Spec.meshDevices with
  | nil => rw [hl] at hmem; cases hmem
  | cons l ls =>
    constructor
    · intro t ht
      simp only [chooseInput, dummyFromSpecs, hl] at ht
      by_cases hall : ls.all (fun k => k == l) = true
      · simp only [hall, ↓reduceIte, Except.ok.injEq] at ht
        subst ht
        refine ⟨_, rfl, ?_⟩
        have hml : m.devices = l := by
          rw [hl] at hmem
          rcases List.mem_cons.mp hmem with h | h
          · exact h
          · simpa using List.all_eq_true.mp hall _ h
        rw [hml]
        exact IsOn.named ..
      · simp only [hall, Bool.false_eq_true, ↓reduceIte] at ht
        cases ht
    · intro s' m' x' k' hs' hm' hne
      have hmem' : m'.devices ∈ sp.leaves.filterMap Spec.meshDevices :=
        List.mem_filterMap.mpr ⟨s', hs', by simp only [Spec.meshDevices, hm']⟩
      simp only [chooseInput, dummyFromSpecs, hl]
      have hall : ls.all (fun k => k == l) = false := by
        rw [← Bool.not_eq_true]
        intro hall
        have eq : ∀ y ∈ l :: ls, y = l := by
          intro y hy
          rcases List.mem_cons.mp hy with h | h
          · exact h
          · simpa using List.all_eq_true.mp hall _ h
        rw [hl] at hmem hmem'
        exact hne ((eq _ hmem').trans (eq _ hmem).symm)
      simp only [hall, Bool.false_eq_true, ↓reduceIte]

/-! ### Concrete cases -/

/-- An array of two accelerators. -/
def exampleArr : Arr := ⟨[4], 1, 42, .named ⟨[tpu 1 1, tpu 0 0], [2], 3, 0⟩ 7 none⟩

/-- A function that returns twice the value of its input. -/
def double (c : Call) : Except Err (Tree Arr) :=
  match c.input with
  | some ⟨td, tr, [a]⟩ => .ok ⟨td, tr, [{ a with val := 2 * a.val }]⟩
  | _ => .error (.raised 0)

theorem C112_result_nonvacuous :
    (dispatch exampleJax exampleController double (some (leafTree (.arr exampleArr)))
      (some (leafTree ⟨[4], 1, some exampleArr.sharding⟩)) ⟨1, false, []⟩ ⟨2, false, []⟩).1 =
      .ok (leafTree ⟨[4], 1, 84, exampleArr.sharding⟩) := by rfl

theorem C112_discard_nonvacuous :
    (dispatch exampleJax exampleController double (some (leafTree (.arr exampleArr)))
      none ⟨1, false, []⟩ ⟨2, false, []⟩).1 =
      .ok (leafTree ⟨[], boolD, trueD, replicated [tpu 0 0, tpu 1 1]⟩) ∧
    (∀ d ∈ [tpu 1 1, tpu 0 0], ∀ e ∈ [tpu 1 1, tpu 0 0],
      (d.id ≤ e.id ↔ (exampleJax.colo d).id ≤ (exampleJax.colo e).id)) := by
  exact ⟨by rfl, by decide +kernel⟩

theorem C112_devices_nonvacuous :
    chooseInput exampleController none
      (some (leafTree ⟨[4], 1, some exampleArr.sharding⟩)) =
      .ok (leafTree (.arr (dummyInput [tpu 1 1, tpu 0 0]))) := by rfl

/-! ### Findings -/

/-- C112 (finding): a function that rightly returns an empty tree for empty
specifications is run, and then the dispatch fails: an empty tree is taken for none. -/
theorem C112_empty_fails (J : Jax) (P : Process) (func : Call → Except Err (Tree Arr))
    (input : Option (Tree Inp)) (td : Nat) (args kwargs : Tree Leaf)
    (hf : ∀ c, func c = .ok ⟨td, false, []⟩) :
    ∃ e, (dispatch J P func input (some ⟨td, false, []⟩) args kwargs).1 = .error e := by
  simp only [dispatch]
  cases hp : prepare J P input (some ⟨td, false, []⟩) args kwargs with
  | error e => exact ⟨e, rfl⟩
  | ok p =>
    obtain ⟨inputs, _, _, _, h4, h5, _, _⟩ := prepare_ok J P _ _ args kwargs p hp
    simp only [chooseSpecs, Bool.false_eq_true, ↓reduceIte] at h4
    cases hd : dummySharding inputs with
    | error e => rw [hd] at h4; cases h4
    | ok sh =>
      rw [hd] at h4
      simp only [Except.ok.injEq] at h4
      refine ⟨.mismatch, ?_⟩
      simp only [wrapperResult, hf, Option.isNone_some, Bool.false_eq_true, ↓reduceIte]
      have : fitsTree ⟨td, false, []⟩ p.cpuSpecs = false := by
        rw [← Bool.not_eq_true, fitsTree_iff J p.specs p.cpuSpecs _ h5, ← h4]
        rintro ⟨_, hl, _⟩
        simp [leafTree] at hl
      simp only [this, Bool.false_eq_true, ↓reduceIte]

/-- C112 (finding): a function that returns no arrays has been carried out once when the mismatch with the given
result specification is reported: the error does not mean that nothing happened. -/
theorem C112_empty_ran_fails :
    (dispatch exampleJax exampleController (fun _ => .ok ⟨9, false, []⟩)
      (some (leafTree (.arr exampleArr))) (some ⟨9, false, []⟩) ⟨1, false, []⟩
      ⟨2, false, []⟩).2.length = 1 ∧
    (dispatch exampleJax exampleController (fun _ => .ok ⟨9, false, []⟩)
      (some (leafTree (.arr exampleArr))) (some ⟨9, false, []⟩) ⟨1, false, []⟩
      ⟨2, false, []⟩).1 = .error .mismatch := by
  exact ⟨by rfl, by rfl⟩

/-- Hosts whose CPUs are numbered the other way round. -/
def reversedJax : Jax :=
  ⟨fun d => if d.platform == cpu then d else
    if d.id = 0 then ⟨23, 5, 3, cpu, []⟩ else ⟨22, 5, 2, cpu, []⟩⟩

/-- C112 (finding): if the CPUs are not numbered in the order of the accelerators, the
array that signals completion is not on the mesh declared for it: the function has run, and
the dispatch fails. -/
theorem C112_order_fails :
    (dispatch reversedJax exampleController double (some (leafTree (.arr exampleArr)))
      none ⟨1, false, []⟩ ⟨2, false, []⟩).1 = .error .mismatch ∧
    (dispatch reversedJax exampleController double (some (leafTree (.arr exampleArr)))
      none ⟨1, false, []⟩ ⟨2, false, []⟩).2.length = 1 := by
  exact ⟨by rfl, by rfl⟩

/-- C112 (finding): a number or NumPy array among the inputs makes every dispatch without
specifications fail. -/
theorem C112_number_fails (J : Jax) (P : Process) (func : Call → Except Err (Tree Arr))
    (t : Tree Inp) (shape : List Nat) (dtype val : Nat) (h : .num shape dtype val ∈ t.leaves)
    (args kwargs : Tree Leaf) :
    ∃ e, dispatch J P func (some t) none args kwargs = (.error e, []) := by
  have hd : ∃ e, dummySharding t = .error e := by
    simp only [dummySharding]
    cases hm : mapM Inp.deviceSet t.leaves with
    | error e => exact ⟨e, rfl⟩
    | ok l =>
      obtain ⟨h1, h2⟩ := (mapM_ok _ _ _).mp hm
      obtain ⟨i, hi, hx⟩ := List.getElem_of_mem h
      have := h2 i hi (by omega)
      rw [hx] at this; cases this
  simp only [dispatch]
  cases hp : prepare J P (some t) none args kwargs with
  | error e => exact ⟨e, rfl⟩
  | ok p =>
    obtain ⟨inputs, h1, _, _, h4, _, _, _⟩ := prepare_ok J P _ _ args kwargs p hp
    simp only [chooseInput, Except.ok.injEq] at h1
    subst h1
    obtain ⟨e, he⟩ := hd
    simp only [chooseSpecs, he] at h4
    cases h4

/-- C112 (finding): the devices of results on a single device are not looked at if there is
a mesh: the function is run without the device one of its results is to be on. -/
theorem C112_outside_fails :
    chooseInput exampleController none (some ⟨4, true, [
      ⟨[4], 1, some (.named ⟨[tpu 0 0], [1], 3, 0⟩ 7 none)⟩,
      ⟨[4], 1, some (.single (tpu 1 1) none)⟩]⟩) =
      .ok (leafTree (.arr (dummyInput [tpu 0 0]))) := by rfl

end Verif.Transport
