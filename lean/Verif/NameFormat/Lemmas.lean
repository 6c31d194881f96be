import Verif.NameFormat.Model

/-! # Helper lemmas about step names -/

namespace Verif.NameFormat

theorem digit_toNat {n : Nat} (h : n < 10) : (digit n).toNat = 48 + n := by
  have : ∀ n, n < 10 → (digit n).toNat = 48 + n := by decide
  exact this n h

theorem digitVal_digit {n : Nat} (h : n < 10) : digitVal (digit n) = some n := by
  unfold digitVal
  rw [digit_toNat h, if_pos (by omega)]
  simp

theorem ndZeros_ge : ∀ z ∈ ndZeros, 128 ≤ z := by decide

theorem digitVal_ascii {c : Char} (hc : c.toNat < 128) {d : Nat} (h : digitVal c = some d) :
    c = digit d ∧ d < 10 := by
  unfold digitVal at h
  split at h
  · rename_i hr
    simp at h; subst h
    refine ⟨?_, by omega⟩
    unfold digit
    rw [show 48 + (c.toNat - 48) = c.toNat by omega]
    exact (Char.ofNat_toNat c).symm
  · rw [List.findSome?_eq_some_iff] at h
    obtain ⟨l1, z, l2, hl, hz, _⟩ := h
    have := ndZeros_ge z (by rw [hl]; simp)
    split at hz
    · omega
    · simp at hz

theorem isDigit_digit {n : Nat} (h : n < 10) : isDigit (digit n) = true := by
  simp [isDigit, digitVal_digit h]

/-- A plain name: ASCII, no newline. -/
def Plain (s : Name) : Prop := ∀ c ∈ s, c.toNat < 128 ∧ c ≠ '\n'

theorem isDigit_plain {c : Char} (hc : c.toNat < 128) (h : isDigit c = true) :
    ∃ d, d < 10 ∧ c = digit d := by
  unfold isDigit at h
  rw [Option.isSome_iff_exists] at h
  obtain ⟨d, hd⟩ := h
  obtain ⟨h1, h2⟩ := digitVal_ascii hc hd
  exact ⟨d, h2, h1⟩

/-- A list of ASCII digits. -/
def Digits (g : Name) : Prop := ∀ c ∈ g, ∃ d, d < 10 ∧ c = digit d

theorem digits_isDigit {g : Name} (h : Digits g) : g.all isDigit = true := by
  rw [List.all_eq_true]
  intro c hc
  obtain ⟨d, hd, rfl⟩ := h c hc
  exact isDigit_digit hd

theorem digits_of_plain {g : Name} (hp : ∀ c ∈ g, c.toNat < 128) (h : g.all isDigit = true) :
    Digits g := by
  intro c hc
  exact isDigit_plain (hp c hc) (List.all_eq_true.mp h c hc)

theorem intOf_snoc (g : Name) (c : Char) : intOf (g ++ [c]) = 10 * intOf g + (digitVal c).getD 0 := by
  simp [intOf, List.foldl_append]

theorem dec_digits (n : Nat) : Digits (dec n) := by
  induction n using Nat.strongRecOn with
  | ind n ih =>
    rw [dec]
    split
    · rename_i h
      intro c hc
      simp at hc; exact ⟨n, h, hc⟩
    · rename_i h
      intro c hc
      rw [List.mem_append] at hc
      rcases hc with hc | hc
      · exact ih (n/10) (by omega) c hc
      · simp at hc; exact ⟨n % 10, by omega, hc⟩

theorem dec_ne_nil (n : Nat) : dec n ≠ [] := by
  rw [dec]; split <;> simp

theorem intOf_dec (n : Nat) : intOf (dec n) = n := by
  induction n using Nat.strongRecOn with
  | ind n ih =>
    rw [dec]
    split
    · rename_i h
      simp [intOf, digitVal_digit h]
    · rename_i h
      rw [intOf_snoc, ih (n/10) (by omega), digitVal_digit (by omega)]
      simp; omega

theorem digit_ne_zero {n : Nat} (h : n < 10) (h0 : n ≠ 0) :
    49 ≤ (digit n).toNat ∧ (digit n).toNat < 58 := by
  rw [digit_toNat h]; omega

/-- The first digit is not zero unless the number is zero. -/
theorem dec_head (n : Nat) (h : n ≠ 0) :
    ∃ c ds, dec n = c :: ds ∧ (49 ≤ c.toNat ∧ c.toNat < 58) := by
  induction n using Nat.strongRecOn with
  | ind n ih =>
    rw [dec]
    split
    · rename_i h'
      exact ⟨digit n, [], rfl, digit_ne_zero h' h⟩
    · rename_i h'
      obtain ⟨c, ds, h1, h2⟩ := ih (n/10) (by omega) (by omega)
      exact ⟨c, ds ++ [digit (n % 10)], by rw [h1]; rfl, h2⟩

theorem dec_zero : dec 0 = ['0'] := by rw [dec]; rfl

/-- Snoc induction. -/
theorem snoc_cases {α : Type} (g : List α) : g = [] ∨ ∃ g' c, g = g' ++ [c] := by
  rcases List.eq_nil_or_concat g with h | ⟨g', c, h⟩
  · exact .inl h
  · exact .inr ⟨g', c, by simpa using h⟩

/-- Digits not starting with zero are the decimal rendering of their value. -/
theorem dec_intOf : ∀ (n : Nat) (g : Name), g.length = n → Digits g → ∀ c ds, g = c :: ds →
    (49 ≤ c.toNat ∧ c.toNat < 58) → dec (intOf g) = g ∧ intOf g ≠ 0 := by
  intro n
  induction n with
  | zero => intro g hl _ c ds hg; subst hg; simp at hl
  | succ n ih =>
    intro g hl hd c ds hg hc
    rcases snoc_cases g with h | ⟨g', x, h⟩
    · rw [h] at hg; simp at hg
    · subst h
      obtain ⟨d, hd10, rfl⟩ := hd x (by simp)
      have hd' : Digits g' := fun c hc => hd c (by simp [hc])
      rw [intOf_snoc, digitVal_digit hd10]
      cases hg' : g' with
      | nil =>
        rw [hg'] at hg; simp at hg
        have h0 : intOf [] = 0 := rfl
        obtain ⟨rfl, _⟩ := hg
        rw [digit_toNat hd10] at hc
        rw [h0]
        simp only [Option.getD_some, Nat.mul_zero, Nat.zero_add, List.nil_append]
        refine ⟨?_, by omega⟩
        rw [dec, if_pos hd10]
      | cons y ys =>
        have hy : y = c := by rw [hg'] at hg; simp at hg; exact hg.1
        obtain ⟨h1, h2⟩ := ih g' (by simp at hl; exact hl) hd' y ys hg' (hy ▸ hc)
        rw [← hg']
        simp only [Option.getD_some]
        refine ⟨?_, by omega⟩
        rw [dec, if_neg (by omega)]
        rw [show (10 * intOf g' + d) / 10 = intOf g' by omega,
          show (10 * intOf g' + d) % 10 = d by omega, h1]

theorem zero_eq_digit : ('0' : Char) = digit 0 := rfl

theorem foldl_zeros (k acc : Nat) (g : Name) (h : acc = 0) :
    (List.replicate k '0' ++ g).foldl (fun acc c => 10 * acc + (digitVal c).getD 0) acc =
      g.foldl (fun acc c => 10 * acc + (digitVal c).getD 0) acc := by
  induction k generalizing acc with
  | zero => simp
  | succ k ih =>
    simp only [List.replicate_succ, List.cons_append, List.foldl_cons]
    rw [ih]
    · congr 1
      rw [h, zero_eq_digit, digitVal_digit (by omega)]; rfl
    · rw [h, zero_eq_digit, digitVal_digit (by omega)]; rfl

theorem intOf_pad (k : Nat) (g : Name) : intOf (List.replicate k '0' ++ g) = intOf g :=
  foldl_zeros k 0 g rfl

theorem intOf_zero_cons (g : Name) : intOf ('0' :: g) = intOf g := intOf_pad 1 g

/-- A non-empty list of digits is its value, zero padded to its length. -/
theorem pad_intOf (g : Name) (hd : Digits g) (hne : g ≠ []) :
    List.replicate (g.length - (dec (intOf g)).length) '0' ++ dec (intOf g) = g ∧
      (dec (intOf g)).length ≤ g.length := by
  induction g with
  | nil => exact absurd rfl hne
  | cons c ds ih =>
    obtain ⟨d, hd10, rfl⟩ := hd c (by simp)
    by_cases h0 : d = 0
    · subst h0
      rw [← zero_eq_digit, intOf_zero_cons]
      cases ds with
      | nil => simp [intOf, dec_zero]
      | cons y ys =>
        obtain ⟨h1, h2⟩ := ih (fun c hc => hd c (by simp [hc])) (by simp)
        refine ⟨?_, by simp at h2 ⊢; omega⟩
        have hl : ('0' :: y :: ys).length - (dec (intOf (y :: ys))).length =
          ((y :: ys).length - (dec (intOf (y :: ys))).length) + 1 := by
          simp at h2 ⊢; omega
        rw [hl, List.replicate_succ, List.cons_append, h1]
    · have := dec_intOf _ (digit d :: ds) rfl hd _ _ rfl (digit_ne_zero hd10 h0)
      rw [this.1]; simp

theorem dec_inj {a b : Nat} (h : dec a = dec b) : a = b := by
  rw [← intOf_dec a, ← intOf_dec b, h]

theorem minus_not_digit : ∀ n, n < 10 → digit n ≠ '-' := by decide

/-- The printed number (after the prefix). -/
def numStr (w : Option Nat) (s : Int) : Name :=
  match w with | some w => padInt w s | none => showInt s

theorem buildName_eq (f : Format) (s : Int) : buildName f s = prefixU f.pfx ++ numStr f.width s := rfl

theorem padInt_digits (k : Nat) (n : Nat) : Digits (List.replicate k '0' ++ dec n) := by
  intro c hc
  rw [List.mem_append] at hc
  rcases hc with hc | hc
  · exact ⟨0, by omega, (List.mem_replicate.mp hc).2⟩
  · exact dec_digits n c hc

theorem numStr_nonneg (w : Option Nat) {s : Int} (h : 0 ≤ s) :
    numStr w s = List.replicate (w.getD 0 - (dec s.natAbs).length) '0' ++ dec s.natAbs := by
  have : ¬ s < 0 := by omega
  cases w with
  | none => simp [numStr, showInt, this]
  | some w => simp [numStr, padInt, this]

theorem numStr_neg (w : Option Nat) {s : Int} (h : s < 0) :
    ∃ k, numStr w s = '-' :: (List.replicate k '0' ++ dec s.natAbs) := by
  cases w with
  | none => exact ⟨0, by simp [numStr, showInt, h]⟩
  | some w => exact ⟨w - 1 - (dec s.natAbs).length, by simp only [numStr, padInt, if_pos h]⟩

theorem numStr_digits (w : Option Nat) {s : Int} (h : 0 ≤ s) : Digits (numStr w s) := by
  rw [numStr_nonneg w h]; exact padInt_digits _ _

theorem numStr_ne_nil (w : Option Nat) (s : Int) : numStr w s ≠ [] := by
  by_cases h : s < 0
  · obtain ⟨k, hk⟩ := numStr_neg w h; rw [hk]; simp
  · rw [numStr_nonneg w (by omega)]
    intro h'
    exact dec_ne_nil _ (List.append_eq_nil_iff.mp h').2

theorem intOf_numStr (w : Option Nat) {s : Int} (h : 0 ≤ s) : intOf (numStr w s) = s.natAbs := by
  rw [numStr_nonneg w h, intOf_pad, intOf_dec]

theorem numStr_inj (w : Option Nat) {s t : Int} (h : numStr w s = numStr w t) : s = t := by
  have neg_ne : ∀ {a b : Int}, a < 0 → 0 ≤ b → numStr w a ≠ numStr w b := by
    intro a b ha hb he
    obtain ⟨k, hk⟩ := numStr_neg w ha
    have := numStr_digits w hb '-' (by rw [← he, hk]; simp)
    obtain ⟨d, hd, e⟩ := this
    exact minus_not_digit d hd e.symm
  by_cases hs : s < 0 <;> by_cases ht : t < 0
  · obtain ⟨k, hk⟩ := numStr_neg w hs
    obtain ⟨l, hl⟩ := numStr_neg w ht
    rw [hk, hl] at h
    simp only [List.cons.injEq, true_and] at h
    have : intOf (List.replicate k '0' ++ dec s.natAbs) = intOf (List.replicate l '0' ++ dec t.natAbs) := by
      rw [h]
    rw [intOf_pad, intOf_pad, intOf_dec, intOf_dec] at this
    omega
  · exact absurd h (neg_ne hs (by omega))
  · exact absurd h.symm (neg_ne ht (by omega))
  · have : intOf (numStr w s) = intOf (numStr w t) := by rw [h]
    rw [intOf_numStr w (by omega), intOf_numStr w (by omega)] at this
    omega

/-! ### The group recogniser -/

theorem zero_toNat : ('0' : Char).toNat = 48 := rfl

theorem groupOk_numStr (w : Option Nat) {s : Int} (h : 0 ≤ s) : groupOk w (numStr w s) = true := by
  have hdig := numStr_digits w h
  have hval := numStr_nonneg w h
  by_cases hz : s.natAbs = 0
  · rw [hz, dec_zero] at hval
    rw [hval]
    match w with
    | none => rfl
    | some 0 => rfl
    | some 1 => rfl
    | some (w+2) =>
      simp only [Option.getD_some, List.length_singleton, List.replicate_succ,
        List.cons_append, groupOk, Nat.reduceSubDiff]
      have : (List.replicate w '0' ++ ['0']).all isDigit = true := by
        apply digits_isDigit
        intro c hc
        simp [List.mem_replicate] at hc
        refine ⟨0, by omega, ?_⟩
        rcases hc with hc | hc
        · rw [hc.2]; rfl
        · rw [hc]; rfl
      simp [this]
  · obtain ⟨c, ds, hc, hr⟩ := dec_head _ hz
    have hcds : ds.all isDigit = true := by
      apply digits_isDigit
      intro x hx
      exact dec_digits s.natAbs x (by rw [hc]; simp [hx])
    rw [hval, hc]
    match w with
    | none => simp only [Option.getD_none, Nat.zero_sub, List.replicate_zero, List.nil_append, groupOk]; simp [hr, hcds]
    | some 0 => simp only [Option.getD_some, Nat.zero_sub, List.replicate_zero, List.nil_append, groupOk]; simp [hr, hcds]
    | some (w+1) =>
      simp only [Option.getD_some, List.length_cons, Nat.reduceSubDiff]
      by_cases hl : w ≤ ds.length
      · rw [Nat.sub_eq_zero_of_le hl]
        simp only [List.replicate_zero, List.nil_append, groupOk]
        simp [hr, hcds, hl]
      · obtain ⟨k, hk⟩ : ∃ k, w - ds.length = k + 1 := ⟨w - ds.length - 1, by omega⟩
        rw [hk]
        simp only [List.replicate_succ, List.cons_append, groupOk]
        have hall : (List.replicate k '0' ++ c :: ds).all isDigit = true := by
          apply digits_isDigit
          intro x hx
          rw [List.mem_append] at hx
          rcases hx with hx | hx
          · exact ⟨0, by omega, (List.mem_replicate.mp hx).2⟩
          · exact dec_digits s.natAbs x (by rw [hc]; exact hx)
        have hlen : (List.replicate k '0' ++ c :: ds).length = w := by
          simp; omega
        simp only [hall, hlen]
        simp

/-- A plain string accepted by the group is the printed form of its value. -/
theorem groupOk_plain (w : Option Nat) {g : Name} (hp : ∀ c ∈ g, c.toNat < 128)
    (h : groupOk w g = true) : g = numStr w (intOf g) := by
  have nn : (0 : Int) ≤ (intOf g : Int) := by omega
  rw [numStr_nonneg w nn]
  have e : ((intOf g : Int)).natAbs = intOf g := by simp
  rw [e]
  cases g with
  | nil => simp [groupOk] at h
  | cons c ds =>
    have zcase : ∀ hd : Digits (c :: ds), (c :: ds).length = w.getD 0 →
        c :: ds = List.replicate (w.getD 0 - (dec (intOf (c :: ds))).length) '0' ++
          dec (intOf (c :: ds)) := by
      intro hd hl
      rw [← hl]; exact (pad_intOf _ hd (by simp)).1.symm
    have ncase : ∀ hd : Digits (c :: ds), (49 ≤ c.toNat ∧ c.toNat < 58) → w.getD 0 ≤ (c :: ds).length →
        c :: ds = List.replicate (w.getD 0 - (dec (intOf (c :: ds))).length) '0' ++
          dec (intOf (c :: ds)) := by
      intro hd hc hl
      rw [(dec_intOf _ _ rfl hd _ _ rfl hc).1, Nat.sub_eq_zero_of_le hl]; rfl
    have dig : ∀ hc : (∃ d, d < 10 ∧ c = digit d), ds.all isDigit = true → Digits (c :: ds) := by
      intro hc hds x hx
      rcases List.mem_cons.mp hx with rfl | hx
      · exact hc
      · exact digits_of_plain (fun c hc => hp c (by simp [hc])) hds x hx
    have nz : (49 ≤ c.toNat ∧ c.toNat < 58) → ∃ d, d < 10 ∧ c = digit d := by
      intro hc
      refine ⟨c.toNat - 48, by omega, ?_⟩
      unfold digit
      rw [show 48 + (c.toNat - 48) = c.toNat by omega]
      exact (Char.ofNat_toNat c).symm
    have unpadded : ∀ (_ : (c == '0' && ds.isEmpty ||
        decide (49 ≤ c.toNat ∧ c.toNat < 58) && ds.all isDigit) = true) (_ : w.getD 0 = 0),
        c :: ds = List.replicate (w.getD 0 - (dec (intOf (c :: ds))).length) '0' ++
          dec (intOf (c :: ds)) := by
      intro h hw
      rw [Bool.or_eq_true, Bool.and_eq_true, Bool.and_eq_true, decide_eq_true_eq] at h
      rcases h with ⟨h1, h2⟩ | ⟨h1, h2⟩
      · have : ds = [] := by simpa using h2
        subst this
        have : c = '0' := by simpa using h1
        subst this
        rw [intOf_zero_cons, hw]
        simp [intOf, dec_zero]
      · exact ncase (dig (nz h1) h2) h1 (by omega)
    match w, h with
    | none, h => exact unpadded h rfl
    | some 0, h => exact unpadded h rfl
    | some (w+1), h =>
      simp only [groupOk] at h
      rw [Bool.or_eq_true, Bool.and_eq_true, Bool.and_eq_true, Bool.and_eq_true, Bool.and_eq_true,
        decide_eq_true_eq, decide_eq_true_eq] at h
      rcases h with ⟨⟨h1, h2⟩, h3⟩ | ⟨⟨h1, h2⟩, h3⟩
      · have h1 : c = '0' := by simpa using h1
        have h3 : ds.length = w := by simpa using h3
        exact zcase (dig ⟨0, by omega, h1⟩ h2) (by simp [h3])
      · exact ncase (dig (nz h1) h2) h1 (by simp; omega)

theorem newline_not_digit : isDigit '\n' = false := by decide

theorem groupOk_no_newline {w : Option Nat} {g : Name} (h : groupOk w g = true) : '\n' ∉ g := by
  cases g with
  | nil => simp
  | cons c ds =>
    have hds : ds.all isDigit = true ∧ c ≠ '\n' := by
      have nn : ¬ (49 ≤ ('\n' : Char).toNat ∧ ('\n' : Char).toNat < 58) := by decide
      have ne : ∀ x : Char, (x == '0') = true → x ≠ '\n' := by
        intro x hx; have : x = '0' := by simpa using hx
        rw [this]; decide
      have un : (c == '0' && ds.isEmpty ||
        decide (49 ≤ c.toNat ∧ c.toNat < 58) && ds.all isDigit) = true →
          ds.all isDigit = true ∧ c ≠ '\n' := by
        intro h
        rw [Bool.or_eq_true, Bool.and_eq_true, Bool.and_eq_true, decide_eq_true_eq] at h
        rcases h with ⟨h1, h2⟩ | ⟨h1, h2⟩
        · have : ds = [] := by simpa using h2
          subst this; exact ⟨rfl, ne c h1⟩
        · exact ⟨h2, fun e => nn (e ▸ h1)⟩
      match w, h with
      | none, h => exact un h
      | some 0, h => exact un h
      | some (w+1), h =>
        simp only [groupOk] at h
        rw [Bool.or_eq_true, Bool.and_eq_true, Bool.and_eq_true, Bool.and_eq_true, Bool.and_eq_true,
          decide_eq_true_eq, decide_eq_true_eq] at h
        rcases h with ⟨⟨h1, h2⟩, h3⟩ | ⟨⟨h1, h2⟩, h3⟩
        · exact ⟨h2, ne c h1⟩
        · exact ⟨h2, fun e => nn (e ▸ h1)⟩
    intro hm
    rcases List.mem_cons.mp hm with e | hm
    · exact hds.2 e.symm
    · have := List.all_eq_true.mp hds.1 _ hm
      rw [newline_not_digit] at this; simp at this

/-! ### Literal prefixes -/

/-- A prefix without regular-expression metacharacters. -/
def Literal (p : Option Name) : Prop := ∀ s, p = some s → ∀ c ∈ s, c ∉ metaChars

theorem literal_prefixU {p : Option Name} (h : Literal p) : ∀ c ∈ prefixU p, c ∉ metaChars := by
  cases p with
  | none => simp [prefixU]
  | some s =>
    intro c hc
    simp only [prefixU, List.mem_append, List.mem_singleton] at hc
    rcases hc with hc | rfl
    · exact h s rfl c hc
    · decide

theorem atomOf_lit {c : Char} (h : c ∉ metaChars) : atomOf c = some (.lit c) := by
  unfold atomOf
  have h1 : c ≠ '.' := fun e => h (by rw [e]; decide)
  have h2 : metaChars.contains c = false := by simpa using h
  rw [if_neg h1, h2]; simp

theorem quantOf_lit {c : Char} (h : c ∉ metaChars) : quantOf c = none := by
  unfold quantOf
  rw [if_neg (fun e => h (by rw [e]; decide)), if_neg (fun e => h (by rw [e]; decide)),
    if_neg (fun e => h (by rw [e]; decide))]

theorem parsePrefix_lit (p : Name) (h : ∀ c ∈ p, c ∉ metaChars) :
    parsePrefix p = some (p.map fun c => ⟨.lit c, .one⟩) := by
  induction p with
  | nil => rfl
  | cons c s ih =>
    have hc := atomOf_lit (h c (by simp))
    cases s with
    | nil => simp [parsePrefix, hc]
    | cons d s =>
      have hd := quantOf_lit (h d (by simp))
      have ih := ih (fun c hc => h c (by simp [hc]))
      simp only [parsePrefix, hc, hd]
      rw [ih]; rfl

theorem seqRest_lit (p : Name) (s : Name) :
    seqRest (p.map fun c => ⟨.lit c, .one⟩) s =
      if p.isPrefixOf s then [s.drop p.length] else [] := by
  induction p generalizing s with
  | nil => simp [seqRest]
  | cons c p ih =>
    cases s with
    | nil => simp [seqRest, itemRest]
    | cons x s =>
      simp only [List.map_cons, seqRest, itemRest, atomMatches, List.isPrefixOf_cons_cons]
      by_cases hcx : c = x
      · subst hcx; simp [ih]
      · have : (c == x) = false := by simpa using hcx
        simp [this]

theorem parseName_lit (f : Format) (h : Literal f.pfx) (name : Name) :
    parseName f name = some (if (prefixU f.pfx).isPrefixOf name then
      matchGroup f.width (name.drop (prefixU f.pfx).length) else none) := by
  unfold parseName
  rw [parsePrefix_lit _ (literal_prefixU h)]
  simp only [Option.map_some, seqRest_lit]
  split <;> simp

theorem matchGroup_numStr (w : Option Nat) {s : Int} (h : 0 ≤ s) :
    matchGroup w (numStr w s) = some s.natAbs := by
  unfold matchGroup
  rw [groupOk_numStr w h, if_pos rfl, intOf_numStr w h]

theorem matchGroup_plain (w : Option Nat) {r : Name} (hp : Plain r) {k : Nat}
    (h : matchGroup w r = some k) : r = numStr w k := by
  unfold matchGroup at h
  split at h
  · rename_i hg
    simp at h; subst h
    exact groupOk_plain w (fun c hc => (hp c hc).1) hg
  · split at h
    · rename_i hg
      rw [Bool.and_eq_true] at hg
      have : r.getLast? = some '\n' := by simpa using hg.1
      exact absurd rfl (hp _ (List.mem_of_getLast? this)).2
    · simp at h

end Verif.NameFormat
