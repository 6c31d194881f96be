import Verif.Emergency.Wire

/-!
# What the peer-to-peer transfer guarantees (C71)

A connection is given by the pieces in which the bytes arrive: non-empty lists whose concatenation is
what was sent (or the beginning of it, if the connection broke).
-/
namespace Verif.Emergency.Wire

/-! ## Numbers -/

theorem bigEndian_length (k n : Nat) : (bigEndian k n).length = k := by
  induction k generalizing n with
  | zero => rfl
  | succ k ih => simp [bigEndian, ih]

theorem fromBytes_append (a : Bytes) (x : Nat) : fromBytes (a ++ [x]) = fromBytes a * 256 + x := by
  simp [fromBytes, List.foldl_append]

theorem fromBytes_bigEndian (k n : Nat) (h : n < 256 ^ k) : fromBytes (bigEndian k n) = n := by
  induction k generalizing n with
  | zero => simp [bigEndian, fromBytes] at *; omega
  | succ k ih =>
    have h1 : n / 256 < 256 ^ k := by
      rw [Nat.pow_succ] at h
      exact Nat.div_lt_of_lt_mul (by rw [Nat.mul_comm]; exact h)
    rw [bigEndian, fromBytes_append, ih _ h1]
    omega

/-! ## Reading exactly so many bytes -/

theorem sockRecv_spec (n : Nat) (hn : 0 < n) (c : Bytes) (cs : List Bytes) (hc : c ≠ [])
    (hcs : ∀ x ∈ cs, x ≠ []) :
    0 < (sockRecv n (c :: cs)).1.length ∧ (sockRecv n (c :: cs)).1.length ≤ n ∧
    (sockRecv n (c :: cs)).1 ++ (sockRecv n (c :: cs)).2.flatten = (c :: cs).flatten ∧
    ∀ x ∈ (sockRecv n (c :: cs)).2, x ≠ [] := by
  have hl : 0 < c.length := List.length_pos_iff.2 hc
  refine ⟨?_, ?_, ?_, ?_⟩
  · simp [sockRecv]; omega
  · simp [sockRecv]; omega
  · by_cases h : c.length ≤ n
    · simp [sockRecv, h, List.take_of_length_le]
    · simp [sockRecv, h, ← List.append_assoc]
  · by_cases h : c.length ≤ n
    · simpa [sockRecv, h] using hcs
    · intro x hx
      simp only [sockRecv, h, if_false, List.mem_cons] at hx
      rcases hx with rfl | hx
      · intro h0
        have := congrArg List.length h0
        simp at this; omega
      · exact hcs x hx

theorem recvExact_some (n : Nat) : ∀ (s : List Bytes), (∀ c ∈ s, c ≠ []) → n ≤ s.flatten.length →
    ∃ s', recvExact n s = some (s.flatten.take n, s') ∧ s'.flatten = s.flatten.drop n ∧
      ∀ c ∈ s', c ≠ [] := by
  induction n using Nat.strongRecOn with
  | ind n ih =>
    intro s hs hn
    rw [recvExact]
    by_cases h0 : n = 0
    · subst h0; exact ⟨s, by simp, by simp, hs⟩
    · cases s with
      | nil => simp at hn; omega
      | cons c cs =>
        have hp := sockRecv_spec n (by omega) c cs (hs c (by simp))
          (fun x hx => hs x (List.mem_cons_of_mem _ hx))
        generalize sockRecv n (c :: cs) = r at hp
        obtain ⟨b, t⟩ := r
        obtain ⟨p1, p2, p3, p4⟩ := hp
        simp only at p1 p2 p3 p4
        have p1' : ¬ b.length = 0 := by omega
        rw [← p3] at hn ⊢
        obtain ⟨s', e1, e2, e3⟩ := ih (n - b.length) (by omega) t p4 (by
          simp only [List.length_append] at hn; omega)
        refine ⟨s', ?_, ?_, e3⟩
        · simp only [h0, dite_false, p1', e1]
          congr 2
          rw [List.take_append, List.take_of_length_le p2]
        · rw [e2, List.drop_append, List.drop_of_length_le p2]; rfl

theorem recvExact_none (n : Nat) : ∀ (s : List Bytes), (∀ c ∈ s, c ≠ []) → s.flatten.length < n →
    recvExact n s = none := by
  induction n using Nat.strongRecOn with
  | ind n ih =>
    intro s hs hn
    rw [recvExact]
    have h0 : ¬ n = 0 := by omega
    cases s with
    | nil => simp [h0, sockRecv]
    | cons c cs =>
      have hp := sockRecv_spec n (by omega) c cs (hs c (by simp))
        (fun x hx => hs x (List.mem_cons_of_mem _ hx))
      generalize sockRecv n (c :: cs) = r at hp
      obtain ⟨b, t⟩ := r
      obtain ⟨p1, p2, p3, p4⟩ := hp
      simp only at p1 p2 p3 p4
      have p1' : ¬ b.length = 0 := by omega
      rw [← p3] at hn
      rw [List.length_append] at hn
      simp [h0, p1', ih (n - b.length) (by omega) t p4 (by omega)]

/-- Reading never depends on how the bytes were split. -/
theorem recvExact_split (n : Nat) (s : List Bytes) (hs : ∀ c ∈ s, c ≠ []) (a b : Bytes)
    (h : s.flatten = a ++ b) (ha : a.length = n) :
    ∃ s', recvExact n s = some (a, s') ∧ s'.flatten = b ∧ ∀ c ∈ s', c ≠ [] := by
  obtain ⟨s', h1, h2, h3⟩ := recvExact_some n s hs (by rw [h]; simp; omega)
  refine ⟨s', ?_, ?_, h3⟩
  · rw [h1, h, List.take_append_of_le_length (by omega), List.take_of_length_le (by omega)]
  · rw [h2, h, List.drop_append_of_le_length (by omega), List.drop_of_length_le (by omega)]; rfl

theorem header_length (o l : Nat) : (header o l).length = 5 := by
  simp [header, bigEndian_length]

/-! ## Messages -/

/-- C71: whatever the pieces in which a message arrives, the receiver gets the operation and the value
that were sent, and what follows on the connection is left for the next read. -/
theorem C71_message_round_trip {J : Type} (js : Json J) (op : Nat) (j : J) (rest : Bytes)
    (pieces : List Bytes) (hp : ∀ c ∈ pieces, c ≠ [])
    (hs : pieces.flatten = sendJson js op j ++ rest)
    (hop : op ≠ 4) (htrue : js.falsy j = false) (hne : js.dumps j ≠ [])
    (hlen : (js.dumps j).length < 2 ^ 32) (hjson : js.loads (js.dumps j) = some j) :
    ∃ left, recv js pieces = ((op, .json j), left) ∧ left.flatten = rest ∧ ∀ c ∈ left, c ≠ [] := by
  simp only [sendJson, htrue, Bool.false_eq_true, if_false, List.append_assoc] at hs
  obtain ⟨s1, e1, f1, g1⟩ := recvExact_split 5 pieces hp _ _ hs (header_length _ _)
  obtain ⟨s2, e2, f2, g2⟩ := recvExact_split (js.dumps j).length s1 g1 _ _ f1 rfl
  refine ⟨s2, ?_, f2, g2⟩
  have hl : fromBytes ((header op (js.dumps j).length).drop 1) = (js.dumps j).length := by
    simp only [header, List.drop_succ_cons, List.drop_zero]
    exact fromBytes_bigEndian 4 _ (by simpa using hlen)
  have hl0 : (js.dumps j).length ≠ 0 := by simpa using hne
  simp only [recv, e1, hl, e2]
  simp [header, opFileStream, hop, hne, hjson, hl0]

/-- C71: a message of which only a part arrives is never taken for a message: the receiver reports an
error. -/
theorem C71_message_truncated {J : Type} (js : Json J) (op : Nat) (j : J) (cut : Nat)
    (pieces : List Bytes) (hp : ∀ c ∈ pieces, c ≠ [])
    (hs : pieces.flatten = (sendJson js op j).take cut) (hcut : cut < (sendJson js op j).length)
    (hop : op ≠ 4) (hlen : (js.dumps j).length < 2 ^ 32) :
    (recv js pieces).1 = (0, .none) := by
  generalize hpay : (if js.falsy j then [] else js.dumps j) = pay at *
  have hsj : sendJson js op j = header op pay.length ++ pay := by simp [sendJson, hpay]
  rw [hsj] at hs hcut
  have hlp : pay.length < 2 ^ 32 := by
    rw [← hpay]; split
    · simp
    · exact hlen
  have hl : fromBytes ((header op pay.length).drop 1) = pay.length := by
    simp only [header, List.drop_succ_cons, List.drop_zero]
    exact fromBytes_bigEndian 4 _ (by simpa using hlp)
  have hfl : pieces.flatten.length = cut := by
    rw [hs, List.length_take]; omega
  by_cases h5 : cut < 5
  · simp [recv, recvExact_none 5 pieces hp (by omega), opError]
  · rw [List.take_append, List.take_of_length_le (by rw [header_length]; omega)] at hs
    obtain ⟨s1, e1, f1, g1⟩ := recvExact_split 5 pieces hp _ _ hs (header_length _ _)
    rw [List.length_append, header_length] at hcut
    have hn := recvExact_none pay.length s1 g1 (by
      rw [f1, List.length_take, header_length]; omega)
    simp only [recv, e1, hl, hn]
    simp [header, opFileStream, hop, opError]

/-- C71 (finding): a message whose value is false in Python (an empty manifest, an empty dictionary,
`None`) is received as an error, whatever its operation: the receiver tests for a missing payload
before it tests for an announced length of 0. -/
theorem C71_empty_message_fails {J : Type} (js : Json J) (op : Nat) (j : J) (rest : Bytes)
    (pieces : List Bytes) (hp : ∀ c ∈ pieces, c ≠ [])
    (hs : pieces.flatten = sendJson js op j ++ rest)
    (hop : op ≠ 4) (hfalse : js.falsy j = true) :
    (recv js pieces).1 = (0, .none) := by
  simp only [sendJson, hfalse, if_true, List.append_assoc, List.nil_append] at hs
  obtain ⟨s1, e1, f1, g1⟩ := recvExact_split 5 pieces hp _ _ hs (header_length _ _)
  have hl : fromBytes ((header op ([] : Bytes).length).drop 1) = 0 := by
    simp only [header, List.drop_succ_cons, List.drop_zero]
    exact fromBytes_bigEndian 4 _ (by simp)
  obtain ⟨s2, e2, f2, g2⟩ := recvExact_split 0 s1 g1 [] s1.flatten rfl rfl
  simp only [recv, e1, hl, e2]
  simp [header, opFileStream, hop, opError]

/-! ## Downloads -/

theorem recvFile_take (chunk : Nat) (hc : 0 < chunk) (size : Nat) :
    ∀ (s : List Bytes), (∀ c ∈ s, c ≠ []) → recvFile chunk size s = s.flatten.take size := by
  induction size using Nat.strongRecOn with
  | ind size ih =>
    intro s hs
    rw [recvFile]
    by_cases h0 : size = 0
    · subst h0; simp
    · cases s with
      | nil => simp [sockRecv]
      | cons c cs =>
        have hp := sockRecv_spec (min chunk size) (by omega) c cs (hs c (by simp))
          (fun x hx => hs x (List.mem_cons_of_mem _ hx))
        generalize sockRecv (min chunk size) (c :: cs) = r at hp
        obtain ⟨b, t⟩ := r
        obtain ⟨p1, p2, p3, p4⟩ := hp
        simp only at p1 p2 p3 p4
        have p1' : ¬ b.length = 0 := by omega
        rw [← p3]
        simp only [h0, dite_false, p1', ih (size - b.length) (by omega) t p4]
        rw [List.take_append, List.take_of_length_le (l := b) (by omega)]

theorem recv_sendFile {J : Type} (js : Json J) (content : Bytes) (hlen : content.length < 2 ^ 64)
    (cut : Nat) (pieces : List Bytes) (hp : ∀ c ∈ pieces, c ≠ [])
    (hs : pieces.flatten = (sendFile (some content)).take cut) :
    (∃ s', recv js pieces = ((opFileStream, .file content.length), s') ∧
      s'.flatten = content.take (cut - 13) ∧ ∀ c ∈ s', c ≠ []) ∨
    ((recv js pieces).1 = (opError, .none)) := by
  have hsf : sendFile (some content) =
      header opFileStream 8 ++ (bigEndian 8 content.length ++ content) := by
    simp [sendFile]
  rw [hsf] at hs
  by_cases h5 : cut < 5
  · right
    have : pieces.flatten.length < 5 := by rw [hs, List.length_take]; omega
    simp [recv, recvExact_none 5 pieces hp this]
  · rw [List.take_append, List.take_of_length_le (by rw [header_length]; omega)] at hs
    obtain ⟨s1, e1, f1, g1⟩ := recvExact_split 5 pieces hp _ _ hs (header_length _ _)
    rw [header_length] at f1
    by_cases h13 : cut < 13
    · right
      have : s1.flatten.length < 8 := by rw [f1, List.length_take]; omega
      simp only [recv, e1, recvExact_none 8 s1 g1 this]
      simp [header]
    · left
      rw [List.take_append, List.take_of_length_le (by rw [bigEndian_length]; omega)] at f1
      obtain ⟨s2, e2, f2, g2⟩ := recvExact_split 8 s1 g1 _ _ f1 (bigEndian_length _ _)
      refine ⟨s2, ?_, ?_, g2⟩
      · simp only [recv, e1, e2, fromBytes_bigEndian 8 _ (show content.length < 256 ^ 8 by
          simpa using hlen)]
        simp [header]
      · rw [f2, bigEndian_length]; congr 1

theorem download_error {J : Type} (js : Json J) (chunk : Nat) (pieces : List Bytes)
    (h : (recv js pieces).1 = (opError, .none)) : download js chunk pieces = (0, none) := by
  have hr : recv js pieces = ((opError, .none), (recv js pieces).2) := by rw [← h]
  rw [download, hr]

/-- C71: a download that reports success (a positive number of bytes) has written exactly the file the
peer has, wherever the connection may have broken and however the bytes were split. -/
theorem C71_download_sound {J : Type} (js : Json J) (chunk : Nat) (hc : 0 < chunk) (content : Bytes)
    (hlen : content.length < 2 ^ 64) (cut : Nat) (pieces : List Bytes) (hp : ∀ c ∈ pieces, c ≠ [])
    (hs : pieces.flatten = (sendFile (some content)).take cut)
    (hok : (download js chunk pieces).1 ≠ 0) :
    download js chunk pieces = (content.length, some content) := by
  rcases recv_sendFile js content hlen cut pieces hp hs with ⟨s', h1, h2, h3⟩ | h
  · simp only [download, h1, recvFile_take chunk hc _ s' h3, h2] at hok ⊢
    by_cases h0 : content.length = 0
    · simp [h0] at hok
    · simp only [h0, if_false] at hok ⊢
      by_cases hl : ((content.take (cut - 13)).take content.length).length = content.length
      · have hfull : (content.take (cut - 13)).take content.length = content := by
          rw [List.take_take]
          apply List.take_of_length_le
          simp only [List.length_take] at hl; omega
        rw [hfull]; simp
      · simp only [hl, if_false] at hok; exact absurd rfl hok
  · exact absurd (congrArg Prod.fst (download_error js chunk pieces h)) hok

/-- C71: a download over a connection that does not break writes the peer's file and reports its size,
for every file that is not empty. -/
theorem C71_download_complete {J : Type} (js : Json J) (chunk : Nat) (hc : 0 < chunk)
    (content : Bytes) (hlen : content.length < 2 ^ 64) (hne : content ≠ []) (pieces : List Bytes)
    (hp : ∀ c ∈ pieces, c ≠ []) (hs : pieces.flatten = sendFile (some content)) :
    download js chunk pieces = (content.length, some content) := by
  have hfl : (sendFile (some content)).length = 13 + content.length := by
    simp [sendFile, header_length, bigEndian_length]; omega
  have hsf : sendFile (some content) =
      header opFileStream 8 ++ (bigEndian 8 content.length ++ content) := by
    simp [sendFile]
  rw [hsf] at hs
  obtain ⟨s1, e1, f1, g1⟩ := recvExact_split 5 pieces hp _ _ hs (header_length _ _)
  obtain ⟨s2, e2, f2, g2⟩ := recvExact_split 8 s1 g1 _ _ f1 (bigEndian_length _ _)
  have hr : recv js pieces = ((opFileStream, .file content.length), s2) := by
    simp only [recv, e1, e2, fromBytes_bigEndian 8 _ (show content.length < 256 ^ 8 by
      simpa using hlen)]
    simp [header]
  have h0 : content.length ≠ 0 := by simpa using hne
  simp [download, hr, recvFile_take chunk hc _ s2 g2, f2, h0]

theorem download_empty {J : Type} (js : Json J) (chunk : Nat) (cut : Nat) (pieces : List Bytes)
    (hp : ∀ c ∈ pieces, c ≠ []) (hs : pieces.flatten = (sendFile (some [])).take cut) :
    download js chunk pieces = (0, none) := by
  rcases recv_sendFile js [] (by simp) cut pieces hp hs with ⟨s', h1, -, -⟩ | h
  · simp [download, h1]
  · exact download_error js chunk pieces h

/-! ## Paths -/

/-- C71: a path that is accepted, however many `..` it contains, resolves to a place inside the
directory. -/
theorem C71_path_inside (base rel p : List String) (h : safeJoin base rel = some p) :
    ∃ inner, p = base ++ inner := by
  unfold safeJoin at h
  split at h
  · cases h
  · split at h
    · rename_i hp
      rw [List.isPrefixOf_iff_prefix] at hp
      obtain ⟨t, ht⟩ := hp
      cases h
      exact ⟨t, ht.symm⟩
    · cases h

theorem walk_plain (pos rel : List String) (h : ∀ c ∈ rel, c ≠ "" ∧ c ≠ "." ∧ c ≠ "..") :
    walk pos rel = pos ++ rel := by
  induction rel generalizing pos with
  | nil => simp [walk]
  | cons c cs ih =>
    have hc := h c (by simp)
    rw [walk, if_neg (by simp [hc.1, hc.2.1]), if_neg hc.2.2,
      ih _ (fun x hx => h x (List.mem_cons_of_mem _ hx))]
    simp

/-- C71: an ordinary relative path is accepted, and is the path below the directory. -/
theorem C71_path_accepted (base rel : List String)
    (h : ∀ c ∈ rel, c ≠ "" ∧ c ≠ "." ∧ c ≠ "..") : safeJoin base rel = some (base ++ rel) := by
  have hh : rel.head? ≠ some "" := by
    cases rel with
    | nil => simp
    | cons c cs => simpa using (h c (by simp)).1
  simp [safeJoin, hh, walk_plain base rel h]

/-- C71: an absolute path is refused. -/
theorem C71_path_absolute (base rel : List String) : safeJoin base ("" :: rel) = none := by
  simp [safeJoin]

/-! ## Fetching -/

theorem zeros_match : ∀ (l : List (Nat × Nat)), (∀ x ∈ l, x.2 = 0 → x.1 = 0) →
    l.countP (fun x => x.1 = 0) ≤ l.countP (fun x => x.2 = 0) → ∀ x ∈ l, x.1 = 0 → x.2 = 0
  | [], _, _, x, hx, _ => by cases hx
  | y :: l, h1, h2, x, hx, hx0 => by
    have hle : l.countP (fun x => x.2 = 0) ≤ l.countP (fun x => x.1 = 0) := by
      apply List.countP_mono_left
      intro z hz hz0
      simp only [decide_eq_true_eq] at hz0 ⊢
      exact h1 z (List.mem_cons_of_mem _ hz) hz0
    have hy := h1 y (by simp)
    simp only [List.countP_cons, decide_eq_true_eq] at h2
    rcases List.mem_cons.1 hx with rfl | hx
    · by_cases h : x.2 = 0
      · exact h
      · simp only [hx0, h, if_true, if_false] at h2; omega
    · refine zeros_match l (fun z hz => h1 z (List.mem_cons_of_mem _ hz)) ?_ x hx hx0
      by_cases hy2 : y.2 = 0
      · simp only [hy hy2, hy2, if_true] at h2; omega
      · simp only [hy2, if_false] at h2; omega

theorem countP_zip_le : ∀ (c : List Nat) (m : List Nat), c.length = m.length →
    (∀ x ∈ c.zip m, x.1 = 0 → x.2 = 0) →
    c.countP (fun x => x = 0) ≤ m.countP (fun x => x = 0)
  | [], [], _, _ => by simp
  | [], _ :: _, h, _ => by simp at h
  | _ :: _, [], h, _ => by simp at h
  | a :: c, b :: m, h, hz => by
    have ih := countP_zip_le c m (by simpa using h)
      (fun x hx => hz x (by simp only [List.zip_cons_cons]; exact List.mem_cons_of_mem _ hx))
    have hab := hz (a, b) (by simp)
    simp only at hab
    simp only [List.countP_cons, decide_eq_true_eq]
    by_cases ha : a = 0
    · simp only [ha, hab ha, if_true]; omega
    · simp only [ha, if_false]; omega

theorem countP_zip_fst {α β : Type} (p : α → Bool) : ∀ (a : List α) (b : List β),
    a.length = b.length → (a.zip b).countP (fun x => p x.1) = a.countP p
  | [], [], _ => by simp
  | [], _ :: _, h => by simp at h
  | _ :: _, [], h => by simp at h
  | x :: a, y :: b, h => by
    simp only [List.zip_cons_cons, List.countP_cons, countP_zip_fst p a b (by simpa using h)]

theorem countP_zip_snd {α β : Type} (p : β → Bool) : ∀ (a : List α) (b : List β),
    a.length = b.length → (a.zip b).countP (fun x => p x.2) = b.countP p
  | [], [], _ => by simp
  | [], _ :: _, h => by simp at h
  | _ :: _, [], h => by simp at h
  | x :: a, y :: b, h => by
    simp only [List.zip_cons_cons, List.countP_cons, countP_zip_snd p a b (by simpa using h)]

theorem mem_zip_swap {α β : Type} : ∀ (a : List α) (b : List β) (x : α) (y : β),
    (x, y) ∈ a.zip b → (y, x) ∈ b.zip a
  | [], b, _, _, h => by simp at h
  | _ :: _, [], _, _, h => by simp at h
  | u :: a, v :: b, x, y, h => by
    simp only [List.zip_cons_cons, List.mem_cons, Prod.mk.injEq] at h ⊢
    rcases h with ⟨h1, h2⟩ | h
    · exact Or.inl ⟨h2, h1⟩
    · exact Or.inr (mem_zip_swap a b x y h)

/-- If every non-empty file arrived whole and no empty one did, this is what is staged. -/
theorem staged_eq (step : String) : ∀ (fs : Files) (ds : List (Nat × Option Bytes)),
    fs.length = ds.length →
    (∀ x ∈ fs.zip ds, x.2.2 = if x.1.2 = [] then none else some x.1.2) →
    (((fs.map fun f => (step :: f.1, f.2.length)).zip ds).filterMap
      fun x => x.2.2.map fun b => (x.1.1, b)) =
    (fs.filter fun f => f.2 ≠ []).map fun f => (step :: f.1, f.2)
  | [], ds, _, _ => by simp
  | f :: fs, [], h, _ => by simp at h
  | f :: fs, d :: ds, h, hz => by
    have ih := staged_eq step fs ds (by simpa using h)
      (fun x hx => hz x (by simp only [List.zip_cons_cons]; exact List.mem_cons_of_mem _ hx))
    have h1 := hz (f, d) (by simp)
    simp only at h1
    simp only [List.map_cons, List.zip_cons_cons, List.filterMap_cons, h1]
    by_cases hf : f.2 = []
    · simp only [hf, if_true, Option.map_none]
      rw [ih]; simp [hf]
    · simp only [hf, if_false, Option.map_some]
      rw [ih]; simp [hf]

theorem moved_staged (step : String) (fs : Files) :
    moved step (fs.map fun f => (step :: f.1, f.2)) = fs := by
  unfold moved
  split
  · rw [List.filter_eq_self.2 (by
      intro a ha
      obtain ⟨f, -, rfl⟩ := List.mem_map.1 ha
      simp)]
    simp [List.map_map, Function.comp_def]
  · rename_i h
    cases fs with
    | nil => rfl
    | cons a l => simp at h

/-- C71: if fetching a shard succeeds then the restore directory contains exactly the peer's non-empty
files with their contents, for every way in which each of the connections may break or split its bytes
and for every order in which the downloads complete. -/
theorem C71_fetch_sound_partial {J : Type} (js : Json J) (chunk : Nat) (hc : 0 < chunk)
    (step : String) (stage : List String) (owner : Nat) (files : Files)
    (conns : List (List Bytes)) (hn : files.length = conns.length)
    (hsize : ∀ f ∈ files, f.2.length < 2 ^ 64)
    (hconn : ∀ x ∈ files.zip conns, (∀ c ∈ x.2, c ≠ []) ∧
      ∃ cut, x.2.flatten = (sendFile (some x.1.2)).take cut)
    (completed : List Nat)
    (hperm : completed.Perm (conns.map fun c => (download js chunk c).1))
    (out : Files)
    (h : fetch step stage (manifest step (some owner) files owner)
      (conns.map (download js chunk)) completed = some out) :
    out = files.filter fun f => f.2 ≠ [] := by
  simp only [manifest, if_true] at h
  unfold fetch at h
  split at h
  · cases h
  · split at h
    · cases h
    · split at h
      · cases h
      · rename_i hchk
        have hd : ∀ x ∈ files.zip conns,
            (x.1.2 = [] → download js chunk x.2 = (0, none)) ∧
            ((download js chunk x.2).1 ≠ 0 →
              download js chunk x.2 = (x.1.2.length, some x.1.2)) := by
          intro x hx
          obtain ⟨hp, cut, hs⟩ := hconn x hx
          have hf : x.1 ∈ files := (List.of_mem_zip (show (x.1, x.2) ∈ files.zip conns from hx)).1
          refine ⟨fun h0 => ?_, fun h0 => ?_⟩
          · rw [h0] at hs
            exact download_empty js chunk cut x.2 hp hs
          · exact C71_download_sound js chunk hc x.1.2 (hsize _ hf) cut x.2 hp hs h0
        -- counting
        have hlen : completed.length = files.length := by
          rw [hperm.length_eq, List.length_map, hn]
        have hcnt : completed.countP (fun x => x = 0) ≤
            (files.map fun f => f.2.length).countP (fun x => x = 0) := by
          apply countP_zip_le _ _ (by simp [hlen])
          intro x hx hx0
          apply Nat.eq_zero_of_not_pos
          intro hpos
          apply hchk
          rw [List.any_eq_true]
          have hmap : (files.map fun f => f.2.length) =
              (files.map fun f => (step :: f.1, f.2.length)).map (fun m => m.2) := by
            simp [List.map_map, Function.comp_def]
          rw [hmap, List.zip_map_right] at hx
          obtain ⟨y, hy, rfl⟩ := List.mem_map.1 hx
          refine ⟨y, hy, ?_⟩
          simp only [Prod.map, id] at hx0 hpos
          simp [hx0, hpos]
        rw [hperm.countP_eq] at hcnt
        have hz := zeros_match
          ((conns.map fun c => (download js chunk c).1).zip (files.map fun f => f.2.length))
          (by
            intro x hx hx0
            rw [List.zip_map] at hx
            obtain ⟨⟨c, f⟩, hy, rfl⟩ := List.mem_map.1 hx
            simp only [Prod.map] at hx0 ⊢
            have hy' : (f, c) ∈ files.zip conns := by
              exact mem_zip_swap _ _ _ _ hy
            have := (hd (f, c) hy').1 (by simpa using hx0)
            simp only at this
            rw [this])
          (by
            rw [countP_zip_fst (fun x => decide (x = 0)) _ _ (by simp [hn]),
              countP_zip_snd (fun x => decide (x = 0)) _ _ (by simp [hn])]
            exact hcnt)
        have hst := staged_eq step files (conns.map (download js chunk)) (by simp [hn]) (by
          intro x hx
          rw [List.zip_map_right] at hx
          obtain ⟨⟨f, c⟩, hy, rfl⟩ := List.mem_map.1 hx
          simp only [Prod.map, id]
          have hdc := hd (f, c) hy
          simp only at hdc
          by_cases hf : f.2 = []
          · simp [hf, hdc.1 hf]
          · simp only [hf, if_false]
            have h0 : (download js chunk c).1 ≠ 0 := by
              intro h0
              have hy' : (c, f) ∈ conns.zip files := by
                exact mem_zip_swap _ _ _ _ hy
              have := hz ((download js chunk c).1, f.2.length) (by
                rw [List.zip_map]
                exact List.mem_map.2 ⟨(c, f), hy', rfl⟩) h0
              exact hf (by simpa using this)
            rw [hdc.2 h0])
        rw [hst, moved_staged] at h
        exact (Option.some.inj h).symm

/-- C71: if no connection breaks, no file is empty and the paths are ordinary, fetching succeeds and
the restore directory equals the peer's step directory, for every order of completion. -/
theorem C71_fetch_complete {J : Type} (js : Json J) (chunk : Nat) (hc : 0 < chunk)
    (step : String) (stage : List String) (owner : Nat) (files : Files) (hne : files ≠ [])
    (hplain : step ≠ "" ∧ step ≠ "." ∧ step ≠ "..")
    (hpaths : ∀ f ∈ files, f.2 ≠ [] ∧ ∀ c ∈ f.1, c ≠ "" ∧ c ≠ "." ∧ c ≠ "..")
    (conns : List (List Bytes)) (hn : files.length = conns.length)
    (hsize : ∀ f ∈ files, f.2.length < 2 ^ 64)
    (hconn : ∀ x ∈ files.zip conns, (∀ c ∈ x.2, c ≠ []) ∧ x.2.flatten = sendFile (some x.1.2))
    (completed : List Nat)
    (hperm : completed.Perm (conns.map fun c => (download js chunk c).1)) :
    fetch step stage (manifest step (some owner) files owner)
      (conns.map (download js chunk)) completed = some files := by
  have hd : ∀ x ∈ files.zip conns, download js chunk x.2 = (x.1.2.length, some x.1.2) := by
    intro x hx
    obtain ⟨hp, hs⟩ := hconn x hx
    have hf : x.1 ∈ files := (List.of_mem_zip (show (x.1, x.2) ∈ files.zip conns from hx)).1
    exact C71_download_complete js chunk hc x.1.2 (hsize _ hf) (hpaths _ hf).1 x.2 hp hs
  have hpos : ∀ r ∈ completed, r ≠ 0 := by
    intro r hr
    obtain ⟨c, hcm, rfl⟩ := List.mem_map.1 (hperm.mem_iff.1 hr)
    obtain ⟨i, hi, rfl⟩ := List.mem_iff_getElem.1 hcm
    have hx : (files[i]'(by omega), conns[i]) ∈ files.zip conns := by
      rw [List.mem_iff_getElem]
      exact ⟨i, by simp; omega, by simp⟩
    have := hd _ hx
    simp only at this
    rw [this]
    simpa using (hpaths _ (List.getElem_mem (by omega : i < files.length))).1
  have hst := staged_eq step files (conns.map (download js chunk)) (by simp [hn]) (by
    intro x hx
    rw [List.zip_map_right] at hx
    obtain ⟨⟨f, c⟩, hy, rfl⟩ := List.mem_map.1 hx
    have hf : f ∈ files := (List.of_mem_zip hy).1
    have := hd _ hy
    simp only at this
    simp [this, (hpaths f hf).1])
  have hfil : (files.filter fun f => f.2 ≠ []) = files := by
    rw [List.filter_eq_self]
    intro f hf
    simpa using (hpaths f hf).1
  simp only [manifest, if_true]
  unfold fetch
  rw [if_neg (by simpa using hne), if_neg, if_neg, hst, hfil, moved_staged]
  · simp only [List.any_eq_true, not_exists, not_and]
    intro x hx h0
    have := List.of_mem_zip (show (x.1, x.2) ∈ _ from hx)
    simp only [Bool.and_eq_true, decide_eq_true_eq] at h0
    exact hpos _ this.1 h0.1
  · simp only [List.any_eq_true, not_exists, not_and]
    intro m hm h0
    obtain ⟨f, hf, rfl⟩ := List.mem_map.1 hm
    rw [C71_path_accepted stage (step :: f.1) (by
      intro c hcm
      rcases List.mem_cons.1 hcm with rfl | hcm
      · exact hplain
      · exact (hpaths f hf).2 c hcm)] at h0
    simp at h0

/-- C71: a shard that the peer stored for another process is never fetched. -/
theorem C71_fetch_other_process (step : String) (stage : List String) (stored : Option Nat)
    (req : Nat) (hreq : stored ≠ some req) (files : Files) (downloads : List (Nat × Option Bytes))
    (completed : List Nat) :
    fetch step stage (manifest step stored files req) downloads completed = none := by
  simp [fetch, manifest, hreq]

/-- C71 (finding): an empty file of the peer is never in the restore directory after a successful
fetch: a size of 0 means "missing" on the wire. -/
theorem C71_empty_file_lost_fails {J : Type} (js : Json J) (chunk : Nat) (hc : 0 < chunk)
    (step : String) (stage : List String) (owner : Nat) (files : Files)
    (conns : List (List Bytes)) (hn : files.length = conns.length)
    (hsize : ∀ f ∈ files, f.2.length < 2 ^ 64)
    (hconn : ∀ x ∈ files.zip conns, (∀ c ∈ x.2, c ≠ []) ∧ x.2.flatten = sendFile (some x.1.2))
    (completed : List Nat)
    (hperm : completed.Perm (conns.map fun c => (download js chunk c).1))
    (out : Files)
    (h : fetch step stage (manifest step (some owner) files owner)
      (conns.map (download js chunk)) completed = some out)
    (path : List String) (_hfile : (path, []) ∈ files) : (path, []) ∉ out := by
  rw [C71_fetch_sound_partial js chunk hc step stage owner files conns hn hsize
    (fun x hx => ⟨(hconn x hx).1, (sendFile (some x.1.2)).length, by
      rw [(hconn x hx).2, List.take_length]⟩) completed hperm out h]
  simp

/-- C71 (finding): a fetch in which every download did what it should can be reported as a failure,
depending on the order in which the downloads completed: the results are compared with the manifest in
order of completion.  Here the empty file completes first although it is second in the manifest. -/
theorem C71_order_matters_fails {J : Type} (js : Json J) :
    ∃ (files : Files) (conns : List (List Bytes)) (good bad : List Nat),
      (∀ x ∈ files.zip conns, (∀ c ∈ x.2, c ≠ []) ∧ x.2.flatten = sendFile (some x.1.2)) ∧
      good.Perm (conns.map fun c => (download js 4 c).1) ∧
      bad.Perm (conns.map fun c => (download js 4 c).1) ∧
      fetch "7" ["root", "stage"] (manifest "7" (some 0) files 0)
        (conns.map (download js 4)) good = some [(["d", "a"], [1, 2, 3])] ∧
      fetch "7" ["root", "stage"] (manifest "7" (some 0) files 0)
        (conns.map (download js 4)) bad = none := by
  have h1 : download js 4 [sendFile (some [1, 2, 3])] = (3, some [1, 2, 3]) :=
    C71_download_complete js 4 (by decide) [1, 2, 3] (by decide) (by decide) _ (by decide) (by simp)
  have h2 : download js 4 [sendFile (some [])] = (0, none) :=
    download_empty js 4 13 _ (by decide) (by simp [sendFile, header, bigEndian])
  refine ⟨[(["d", "a"], [1, 2, 3]), (["d", "b"], [])],
    [[sendFile (some [1, 2, 3])], [sendFile (some [])]], [3, 0], [0, 3], ?_, ?_, ?_, ?_, ?_⟩
  · decide
  · simp [h1, h2]
  · simp only [List.map_cons, h1, h2, List.map_nil]
    exact List.Perm.swap _ _ _
  · simp only [List.map_cons, h1, h2, List.map_nil]; decide
  · simp only [List.map_cons, h1, h2, List.map_nil]; decide

/-- A JSON library with two values: the empty list and another one. -/
def demoJson : Json Bool := ⟨fun b => !b, fun b => if b then [123, 125] else [91, 93],
  fun p => if p = [123, 125] then some true else if p = [91, 93] then some false else none⟩

/-- C71, non-vacuity: a message in three pieces followed by more bytes; two files, one of them in
pieces, completing in reverse order. -/
theorem C71_nonvacuous :
    (∃ left, recv demoJson [[1, 0], [0, 0, 2, 123], [125, 9]] = ((1, .json true), left) ∧
      left.flatten = [9] ∧ ∀ c ∈ left, c ≠ []) ∧
    (recv demoJson [[1, 0], [0, 0, 2, 123]]).1 = (0, .none) ∧
    (recv demoJson [[3, 0, 0, 0, 0]]).1 = (0, .none) ∧
    safeJoin ["r"] ["a", "..", "b"] = some ["r", "b"] ∧
    safeJoin ["r"] ["a", "..", "..", "b"] = none ∧
    fetch "7" ["root"] (manifest "7" (some 2) [(["a"], [5, 6]), (["s", "b"], [7])] 2)
      ([[[4, 0, 0, 0, 8, 0, 0, 0], [0, 0, 0, 0, 2, 5], [6]], [[4, 0, 0, 0, 8], [0, 0, 0, 0, 0, 0, 0, 1, 7]]].map
        (download demoJson 4)) [1, 2] = some [(["a"], [5, 6]), (["s", "b"], [7])] := by
  have d1 : download demoJson 4 [[4, 0, 0, 0, 8, 0, 0, 0], [0, 0, 0, 0, 2, 5], [6]] =
      (2, some [5, 6]) :=
    C71_download_complete demoJson 4 (by decide) [5, 6] (by decide) (by decide) _ (by decide)
      (by decide)
  have d2 : download demoJson 4 [[4, 0, 0, 0, 8], [0, 0, 0, 0, 0, 0, 0, 1, 7]] = (1, some [7]) :=
    C71_download_complete demoJson 4 (by decide) [7] (by decide) (by decide) _ (by decide)
      (by decide)
  refine ⟨?_, ?_, ?_, by decide, by decide, ?_⟩
  · exact C71_message_round_trip demoJson 1 true [9] _ (by decide) (by decide) (by decide)
      (by decide) (by decide) (by decide) (by decide)
  · exact C71_message_truncated demoJson 1 true 6 _ (by decide) (by decide) (by decide)
      (by decide) (by decide)
  · exact C71_empty_message_fails demoJson 3 false [] _ (by decide) (by decide) (by decide)
      (by decide)
  · exact C71_fetch_complete demoJson 4 (by decide) "7" ["root"] 2 _ (by decide) (by decide)
      (by decide) _ (by decide) (by decide) (by decide) [1, 2] (by
        simp only [List.map_cons, d1, d2, List.map_nil]
        exact List.Perm.swap _ _ _)

end Verif.Emergency.Wire
