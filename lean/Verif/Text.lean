import Verif.Write

/-!
# Texts

What RapidJSON writes for a sequence of `Writer` calls, and which texts its `Reader` accepts and as which document.
RapidJSON is not part of /repo, so this is the contract on which the rest is based, not a model of its code. The
grammar is that of RFC 8259, on bytes (RapidJSON does not validate UTF-8 unless asked to).
-/

namespace Verif.Text
open Verif.Core Verif.Numeric

/-- Conversion of floating-point numbers: `fmt` is what `Writer::Double` writes, `conv` is what the reader makes of the text of
a number that is no integer or too big for one; `none` when the number is too big for a `double`. -/
structure NumConv where
  fmt : Flt → Str
  conv : Str → Option Flt

/-! ## Writing -/

/-- Hexadecimal digit, upper case. -/
def hexChar (n : Nat) : UInt8 := if n < 10 then UInt8.ofNat (48 + n) else UInt8.ofNat (55 + n)

/-- `Writer::WriteString`: the escape table. -/
def escape (c : UInt8) : Str :=
  if c = 34 then [92, 34]
  else if c = 92 then [92, 92]
  else if c = 8 then [92, 98]
  else if c = 9 then [92, 116]
  else if c = 10 then [92, 110]
  else if c = 12 then [92, 102]
  else if c = 13 then [92, 114]
  else if c.toNat < 32 then [92, 117, 48, 48, hexChar (c.toNat / 16), hexChar (c.toNat % 16)]
  else [c]

/-- A string or key in quotes. -/
def quote (s : Str) : Str := 34 :: (s.flatMap escape ++ [34])

/-- `Writer::Int64` and its siblings, `Writer::Double`. -/
def numText (C : NumConv) : JsonNum → Str
  | .int v => decimalInt v
  | .dbl f => C.fmt f

/-- The level stack of a `Writer`: whether the level is an array, and the number of values on it. -/
abbrev Levels := List (Bool × Nat)

/-- `Writer::Prefix`: a comma or a colon before a value or key that is not the first, and the new count. -/
def putPrefix : Levels → Str × Levels
  | [] => ([], [])
  | (arr, n) :: ls => (if n = 0 then [] else if arr then [44] else if n % 2 = 0 then [44] else [58], (arr, n + 1) :: ls)

/-- One call of a `Writer` method. -/
def writeCall (C : NumConv) (e : Event) (ls : Levels) : Str × Levels :=
  match e with
  | .null => ((putPrefix ls).1 ++ lit "null", (putPrefix ls).2)
  | .bool b => ((putPrefix ls).1 ++ (if b then lit "true" else lit "false"), (putPrefix ls).2)
  | .num n => ((putPrefix ls).1 ++ numText C n, (putPrefix ls).2)
  | .str s => ((putPrefix ls).1 ++ quote s, (putPrefix ls).2)
  | .key k => ((putPrefix ls).1 ++ quote k, (putPrefix ls).2)
  | .startArr => ((putPrefix ls).1 ++ [91], (true, 0) :: (putPrefix ls).2)
  | .startObj => ((putPrefix ls).1 ++ [123], (false, 0) :: (putPrefix ls).2)
  | .endArr => ([93], ls.tail)
  | .endObj => ([125], ls.tail)

/-- The text written by a sequence of calls. -/
def writerText (C : NumConv) : List Event → Levels → Str
  | [], _ => []
  | e :: es, ls => (writeCall C e ls).1 ++ writerText C es (writeCall C e ls).2

/-! ## Reading -/

/-- Blank characters. -/
def isWs (c : UInt8) : Bool := c = 32 || c = 9 || c = 10 || c = 13

/-- Blank text. -/
def Ws (s : Str) : Prop := ∀ c ∈ s, isWs c = true

/-- `0`, or digits that do not start with `0`. -/
def IntPart (s : Str) : Prop := s = [48] ∨ ∃ c r, s = c :: r ∧ isDigit c = true ∧ c ≠ 48 ∧ r.all isDigit = true

/-- One or more digits. -/
def Digits (s : Str) : Prop := s ≠ [] ∧ s.all isDigit = true

/-- Nothing, or a point and digits. -/
def FracPart (s : Str) : Prop := s = [] ∨ ∃ d, s = 46 :: d ∧ Digits d

/-- Nothing, or an exponent. -/
def ExpPart (s : Str) : Prop :=
  s = [] ∨ ∃ e sg d, s = e :: (sg ++ d) ∧ (e = 101 ∨ e = 69) ∧ (sg = [] ∨ sg = [43] ∨ sg = [45]) ∧ Digits d

/-- An optional minus. -/
def minus (neg : Bool) : Str := if neg then [45] else []

/-- The integer denoted by sign and digits. -/
def signed (neg : Bool) (i : Str) : Int := if neg then -(digitsValue i : Int) else digitsValue i

/-- The text of a number. -/
inductive NumText (C : NumConv) : JsonNum → Str → Prop
  | int (neg : Bool) (i : Str) : IntPart i → (JsonNum.int (signed neg i)).Valid → NumText C (.int (signed neg i)) (minus neg ++ i)
  | big (neg : Bool) (i : Str) (f : Flt) : IntPart i → ¬ (JsonNum.int (signed neg i)).Valid → C.conv (minus neg ++ i) = some f →
      NumText C (.dbl f) (minus neg ++ i)
  | real (neg : Bool) (i fr ex : Str) (f : Flt) : IntPart i → FracPart fr → ExpPart ex → fr ++ ex ≠ [] →
      C.conv (minus neg ++ i ++ fr ++ ex) = some f → NumText C (.dbl f) (minus neg ++ i ++ fr ++ ex)

/-- Value of a hexadecimal digit. -/
def hexValue (c : UInt8) : Option Nat :=
  if isDigit c then some (c.toNat - 48)
  else if 65 ≤ c.toNat ∧ c.toNat ≤ 70 then some (c.toNat - 55)
  else if 97 ≤ c.toNat ∧ c.toNat ≤ 102 then some (c.toNat - 87)
  else none

/-- Value of four hexadecimal digits. -/
def hex4 (a b c d : UInt8) : Option Nat :=
  match hexValue a, hexValue b, hexValue c, hexValue d with
  | some a, some b, some c, some d => some (((a * 16 + b) * 16 + c) * 16 + d)
  | _, _, _, _ => none

/-- UTF-8 encoding of a code point. -/
def utf8 (n : Nat) : Str :=
  if n < 0x80 then [UInt8.ofNat n]
  else if n < 0x800 then [UInt8.ofNat (0xC0 + n / 64), UInt8.ofNat (0x80 + n % 64)]
  else if n < 0x10000 then [UInt8.ofNat (0xE0 + n / 4096), UInt8.ofNat (0x80 + n / 64 % 64), UInt8.ofNat (0x80 + n % 64)]
  else [UInt8.ofNat (0xF0 + n / 262144), UInt8.ofNat (0x80 + n / 4096 % 64), UInt8.ofNat (0x80 + n / 64 % 64), UInt8.ofNat (0x80 + n % 64)]

/-- The character denoted by a backslash and a letter. -/
def escaped (c : UInt8) : Option UInt8 :=
  if c = 34 then some 34
  else if c = 92 then some 92
  else if c = 47 then some 47
  else if c = 98 then some 8
  else if c = 102 then some 12
  else if c = 110 then some 10
  else if c = 114 then some 13
  else if c = 116 then some 9
  else none

/-- The characters of a string and their text. -/
inductive Chars : Str → Str → Prop
  | nil : Chars [] []
  | plain (c : UInt8) {d t : Str} : 32 ≤ c.toNat → c ≠ 34 → c ≠ 92 → Chars d t → Chars (c :: d) (c :: t)
  | esc (c e : UInt8) {d t : Str} : escaped e = some c → Chars d t → Chars (c :: d) (92 :: e :: t)
  | unicode (h1 h2 h3 h4 : UInt8) (n : Nat) {d t : Str} : hex4 h1 h2 h3 h4 = some n → ¬ (0xD800 ≤ n ∧ n ≤ 0xDFFF) → Chars d t →
      Chars (utf8 n ++ d) (92 :: 117 :: h1 :: h2 :: h3 :: h4 :: t)
  | surrogates (h1 h2 h3 h4 l1 l2 l3 l4 : UInt8) (n m : Nat) {d t : Str} : hex4 h1 h2 h3 h4 = some n → hex4 l1 l2 l3 l4 = some m →
      0xD800 ≤ n ∧ n ≤ 0xDBFF → 0xDC00 ≤ m ∧ m ≤ 0xDFFF → Chars d t →
      Chars (utf8 (0x10000 + (n - 0xD800) * 1024 + (m - 0xDC00)) ++ d)
        (92 :: 117 :: h1 :: h2 :: h3 :: h4 :: 92 :: 117 :: l1 :: l2 :: l3 :: l4 :: t)

mutual
/-- The text of a value without blanks around it. -/
inductive Den (C : NumConv) : Json → Str → Prop
  | null : Den C .null (lit "null")
  | tt : Den C (.bool true) (lit "true")
  | ff : Den C (.bool false) (lit "false")
  | num {n : JsonNum} {s : Str} : NumText C n s → Den C (.num n) s
  | str {d t : Str} : Chars d t → Den C (.str d) (34 :: (t ++ [34]))
  | arrNil {w : Str} : Ws w → Den C (.arr []) (91 :: (w ++ [93]))
  | arr {js : List Json} {s : Str} : Items C js s → Den C (.arr js) (91 :: (s ++ [93]))
  | objNil {w : Str} : Ws w → Den C (.obj []) (123 :: (w ++ [125]))
  | obj {ms : List (Str × Json)} {s : Str} : Fields C ms s → Den C (.obj ms) (123 :: (s ++ [125]))

/-- One or more values with commas between them. -/
inductive Items (C : NumConv) : List Json → Str → Prop
  | one {w1 w2 s : Str} {j : Json} : Ws w1 → Den C j s → Ws w2 → Items C [j] (w1 ++ (s ++ w2))
  | more {w1 w2 s t : Str} {j : Json} {js : List Json} : Ws w1 → Den C j s → Ws w2 → Items C js t →
      Items C (j :: js) (w1 ++ (s ++ (w2 ++ 44 :: t)))

/-- One or more members with commas between them. -/
inductive Fields (C : NumConv) : List (Str × Json) → Str → Prop
  | one {w1 w2 w3 w4 k kt s : Str} {j : Json} : Ws w1 → Chars k kt → Ws w2 → Ws w3 → Den C j s → Ws w4 →
      Fields C [(k, j)] (w1 ++ 34 :: (kt ++ 34 :: (w2 ++ 58 :: (w3 ++ (s ++ w4)))))
  | more {w1 w2 w3 w4 k kt s t : Str} {j : Json} {ms : List (Str × Json)} : Ws w1 → Chars k kt → Ws w2 → Ws w3 → Den C j s → Ws w4 →
      Fields C ms t → Fields C ((k, j) :: ms) (w1 ++ 34 :: (kt ++ 34 :: (w2 ++ 58 :: (w3 ++ (s ++ (w4 ++ 44 :: t))))))
end

/-- `s` is a JSON text for the document `j`. -/
def Denotes (C : NumConv) (j : Json) (s : Str) : Prop := ∃ w1 t w2, Ws w1 ∧ Den C j t ∧ Ws w2 ∧ s = w1 ++ (t ++ w2)

/-- `s` is a JSON text. -/
def JsonText (C : NumConv) (s : Str) : Prop := ∃ j, Denotes C j s

/-! ## A text is the text of one document -/

/-- `x` does not start with a character of the given kind. -/
def NotHead (p : UInt8 → Bool) (x : Str) : Prop := ∀ c r, x = c :: r → p c = false

theorem split_unique {p : UInt8 → Bool} {w w' x x' : Str} (h : w ++ x = w' ++ x') (hw : ∀ c ∈ w, p c = true) (hw' : ∀ c ∈ w', p c = true)
    (hx : NotHead p x) (hx' : NotHead p x') : w = w' ∧ x = x' := by
  induction w generalizing w' with
  | nil =>
    cases w' with
    | nil => exact ⟨rfl, h⟩
    | cons c w' => have := hx c (w' ++ x') h; rw [hw' c (by simp)] at this; cases this
  | cons c w ih =>
    cases w' with
    | nil => have := hx' c (w ++ x) h.symm; rw [hw c (by simp)] at this; cases this
    | cons c' w' =>
      simp only [List.cons_append, List.cons.injEq] at h
      obtain ⟨rfl, h⟩ := h
      obtain ⟨rfl, rfl⟩ := ih h (fun a ha => hw a (by simp [ha])) (fun a ha => hw' a (by simp [ha]))
      exact ⟨rfl, rfl⟩

/-- Characters of numbers. -/
def numChar (c : UInt8) : Bool := isDigit c || c = 45 || c = 43 || c = 46 || c = 101 || c = 69

theorem isDigit_ne {c : UInt8} (h : isDigit c = true) {k : UInt8} (hk : isDigit k = false) : c ≠ k := by
  rintro rfl; rw [h] at hk; cases hk

theorem all_numChar {s : Str} (h : s.all isDigit = true) : ∀ c ∈ s, numChar c = true := by
  intro c hc
  simp [numChar, List.all_eq_true.1 h c hc]

theorem IntPart.all {s : Str} (h : IntPart s) : s.all isDigit = true := by
  rcases h with rfl | ⟨c, r, rfl, h1, -, h3⟩
  · decide
  · simp [h1]; exact fun x hx => List.all_eq_true.1 h3 x hx

theorem IntPart.cons {s : Str} (h : IntPart s) : ∃ c r, s = c :: r ∧ isDigit c = true := by
  rcases h with rfl | ⟨c, r, rfl, h1, -, -⟩
  · exact ⟨48, [], rfl, by decide⟩
  · exact ⟨c, r, rfl, h1⟩

theorem minus_numChar (neg : Bool) : ∀ c ∈ minus neg, numChar c = true := by
  cases neg <;> simp [minus]; decide

theorem FracPart.chars {s : Str} (h : FracPart s) : ∀ c ∈ s, numChar c = true := by
  rcases h with rfl | ⟨d, rfl, -, h⟩
  · simp
  · intro c hc
    rcases List.mem_cons.1 hc with rfl | hc
    · decide
    · exact all_numChar h c hc

theorem ExpPart.chars {s : Str} (h : ExpPart s) : ∀ c ∈ s, numChar c = true := by
  rcases h with rfl | ⟨e, sg, d, rfl, he, hs, -, h⟩
  · simp
  · intro c hc
    rcases List.mem_cons.1 hc with rfl | hc
    · rcases he with rfl | rfl <;> decide
    · rcases List.mem_append.1 hc with hc | hc
      · rcases hs with rfl | rfl | rfl <;> simp at hc <;> subst hc <;> decide
      · exact all_numChar h c hc

theorem NumText.chars {C : NumConv} {n : JsonNum} {s : Str} (h : NumText C n s) : ∀ c ∈ s, numChar c = true := by
  cases h with
  | int neg i hi => intro c hc; exact (List.mem_append.1 hc).elim (minus_numChar neg c) (all_numChar hi.all c)
  | big neg i f hi => intro c hc; exact (List.mem_append.1 hc).elim (minus_numChar neg c) (all_numChar hi.all c)
  | real neg i fr ex f hi hf he =>
    intro c hc
    simp only [List.mem_append] at hc
    rcases hc with ((hc | hc) | hc) | hc
    · exact minus_numChar neg c hc
    · exact all_numChar hi.all c hc
    · exact hf.chars c hc
    · exact he.chars c hc

theorem NumText.first {C : NumConv} {n : JsonNum} {s : Str} (h : NumText C n s) : ∃ c r, s = c :: r ∧ (c = 45 ∨ isDigit c = true) := by
  have key : ∀ (neg : Bool) (i r : Str), IntPart i → ∃ c r', minus neg ++ i ++ r = c :: r' ∧ (c = 45 ∨ isDigit c = true) := by
    intro neg i r hi
    obtain ⟨c, i', rfl, hc⟩ := hi.cons
    cases neg
    · exact ⟨c, i' ++ r, rfl, .inr hc⟩
    · exact ⟨45, c :: i' ++ r, rfl, .inl rfl⟩
  cases h with
  | int neg i hi => simpa using key neg i [] hi
  | big neg i f hi => simpa using key neg i [] hi
  | real neg i fr ex f hi hf he => simpa using key neg i (fr ++ ex) hi

theorem signed_unique {neg neg' : Bool} {i i' : Str} (hi : IntPart i) (hi' : IntPart i') (h : minus neg ++ i = minus neg' ++ i') :
    neg = neg' ∧ i = i' := by
  obtain ⟨c, r, rfl, hc⟩ := hi.cons
  obtain ⟨c', r', rfl, hc'⟩ := hi'.cons
  have h1 : c ≠ 45 := isDigit_ne hc (by decide)
  have h2 : c' ≠ 45 := isDigit_ne hc' (by decide)
  cases neg <;> cases neg' <;> simp_all [minus]

/-- A real text is no integer text. -/
theorem real_not_int {neg neg' : Bool} {i i' fr ex : Str} (hi' : IntPart i') (hf : FracPart fr) (he : ExpPart ex)
    (hne : fr ++ ex ≠ []) (h : minus neg ++ i ++ fr ++ ex = minus neg' ++ i') : False := by
  have h1 : ∀ c ∈ minus neg' ++ i', c = 45 ∨ isDigit c = true := by
    intro c hc
    rcases List.mem_append.1 hc with hc | hc
    · cases neg' <;> simp [minus] at hc; exact .inl hc
    · exact .inr (List.all_eq_true.1 hi'.all c hc)
  rw [← h] at h1
  rcases hf with rfl | ⟨d, rfl, -⟩
  · rcases he with rfl | ⟨e, sg, d, rfl, he, -⟩
    · simp at hne
    · have := h1 e (by simp)
      rcases he with rfl | rfl <;> simp [isDigit] at this
  · have := h1 46 (by simp)
    simp [isDigit] at this

theorem NumText.unique {C : NumConv} {n n' : JsonNum} {s : Str} (h : NumText C n s) (h' : NumText C n' s) : n = n' := by
  cases h with
  | int neg i hi hv =>
    generalize hs : minus neg ++ i = s at h'
    cases h' with
    | int neg' i' hi' => obtain ⟨rfl, rfl⟩ := signed_unique hi hi' hs; rfl
    | big neg' i' f hi' hv' => obtain ⟨rfl, rfl⟩ := signed_unique hi hi' hs; exact (hv' hv).elim
    | real neg' i' fr ex f hi' hf he hne => exact (real_not_int hi hf he hne hs.symm).elim
  | big neg i f hi hv hc =>
    generalize hs : minus neg ++ i = s at h'
    cases h' with
    | int neg' i' hi' hv' => obtain ⟨rfl, rfl⟩ := signed_unique hi hi' hs; exact (hv hv').elim
    | big neg' i' f' hi' hv' hc' => obtain ⟨rfl, rfl⟩ := signed_unique hi hi' hs; rw [hc] at hc'; cases hc'; rfl
    | real neg' i' fr ex f' hi' hf he hne => exact (real_not_int hi hf he hne hs.symm).elim
  | real neg i fr ex f hi hf he hne hc =>
    generalize hs : minus neg ++ i ++ fr ++ ex = s at h'
    cases h' with
    | int neg' i' hi' hv' => exact (real_not_int hi' hf he hne hs).elim
    | big neg' i' f' hi' hv' hc' => exact (real_not_int hi' hf he hne hs).elim
    | real neg' i' fr' ex' f' hi' hf' he' hne' hc' => rw [← hs, hc] at hc'; cases hc'; rfl

/-- The characters of a string end at the closing quote. -/
theorem Chars.unique {d t r d' t' r' : Str} (h : Chars d t) (h' : Chars d' t') (he : t ++ 34 :: r = t' ++ 34 :: r') :
    d = d' ∧ t = t' ∧ r = r' := by
  induction h generalizing d' t' with
  | nil =>
    cases h' with
    | nil => simpa using he
    | plain c h1 h2 => simp at he; exact (h2 he.1.symm).elim
    | esc | unicode | surrogates => simp at he
  | plain c h1 h2 h3 _ ih =>
    cases h' with
    | nil => simp at he; exact (h2 he.1).elim
    | plain c' _ _ _ h' =>
      simp only [List.cons_append, List.cons.injEq] at he
      obtain ⟨rfl, he⟩ := he
      obtain ⟨rfl, rfl, rfl⟩ := ih h' he
      exact ⟨rfl, rfl, rfl⟩
    | esc | unicode | surrogates => simp at he; exact (h3 he.1).elim
  | esc c e h1 _ ih =>
    cases h' with
    | nil => simp at he
    | plain c' _ _ h3 => simp at he; exact (h3 he.1.symm).elim
    | esc c' e' h1' h' =>
      simp only [List.cons_append, List.cons.injEq, true_and] at he
      obtain ⟨rfl, he⟩ := he
      obtain ⟨rfl, rfl, rfl⟩ := ih h' he
      rw [h1] at h1'
      cases h1'
      exact ⟨rfl, rfl, rfl⟩
    | unicode | surrogates => simp at he; obtain ⟨rfl, -⟩ := he; simp [escaped] at h1
  | unicode h1 h2 h3 h4 n hn hs _ ih =>
    cases h' with
    | nil => simp at he
    | plain c' _ _ h3 => simp at he; exact (h3 he.1.symm).elim
    | esc c' e' h1' h' => simp at he; obtain ⟨rfl, -⟩ := he; simp [escaped] at h1'
    | unicode h1' h2' h3' h4' n' hn' hs' h' =>
      simp only [List.cons_append, List.cons.injEq, true_and] at he
      obtain ⟨rfl, rfl, rfl, rfl, he⟩ := he
      obtain ⟨rfl, rfl, rfl⟩ := ih h' he
      rw [hn] at hn'
      cases hn'
      exact ⟨rfl, rfl, rfl⟩
    | surrogates h1' h2' h3' h4' _ _ _ _ n' m' hn' _ hr' _ h' =>
      simp only [List.cons_append, List.cons.injEq, true_and] at he
      obtain ⟨rfl, rfl, rfl, rfl, he⟩ := he
      rw [hn] at hn'
      cases hn'
      omega
  | surrogates h1 h2 h3 h4 l1 l2 l3 l4 n m hn hm hr hrm _ ih =>
    cases h' with
    | nil => simp at he
    | plain c' _ _ h3 => simp at he; exact (h3 he.1.symm).elim
    | esc c' e' h1' h' => simp at he; obtain ⟨rfl, -⟩ := he; simp [escaped] at h1'
    | unicode h1' h2' h3' h4' n' hn' hs' h' =>
      simp only [List.cons_append, List.cons.injEq, true_and] at he
      obtain ⟨rfl, rfl, rfl, rfl, he⟩ := he
      rw [hn] at hn'
      cases hn'
      omega
    | surrogates h1' h2' h3' h4' _ _ _ _ n' m' hn' hm' hr' _ h' =>
      simp only [List.cons_append, List.cons.injEq, true_and] at he
      obtain ⟨rfl, rfl, rfl, rfl, rfl, rfl, rfl, rfl, he⟩ := he
      obtain ⟨rfl, rfl, rfl⟩ := ih h' he
      rw [hn] at hn'
      rw [hm] at hm'
      cases hn'
      cases hm'
      exact ⟨rfl, rfl, rfl⟩

/-- Kind of value by its first character. -/
def charKind (c : UInt8) : Nat :=
  if c = 110 then 0 else if c = 116 then 1 else if c = 102 then 2 else if c = 34 then 4 else if c = 91 then 5 else if c = 123 then 6 else
    if c = 45 ∨ isDigit c = true then 3 else 7

/-- Kind of value. -/
def jsonKind : Json → Nat
  | .null => 0
  | .bool true => 1
  | .bool false => 2
  | .num _ => 3
  | .str _ => 4
  | .arr _ => 5
  | .obj _ => 6

theorem Den.first {C : NumConv} {j : Json} {s : Str} (h : Den C j s) : ∃ c r, s = c :: r ∧ charKind c = jsonKind j := by
  cases h with
  | null => exact ⟨110, _, rfl, rfl⟩
  | tt => exact ⟨116, _, rfl, rfl⟩
  | ff => exact ⟨102, _, rfl, rfl⟩
  | num h =>
    obtain ⟨c, r, rfl, hc⟩ := h.first
    refine ⟨c, r, rfl, ?_⟩
    have hne : ∀ k : UInt8, k ≠ 45 → isDigit k = false → c ≠ k := by
      intro k hk hd
      rcases hc with rfl | hc
      · exact hk.symm
      · exact isDigit_ne hc hd
    simp only [charKind, hne 110 (by decide) (by decide), hne 116 (by decide) (by decide), hne 102 (by decide) (by decide), hne 34 (by decide) (by decide),
      hne 91 (by decide) (by decide), hne 123 (by decide) (by decide), if_false, if_pos hc, jsonKind]
  | str => exact ⟨34, _, rfl, rfl⟩
  | arrNil | arr => exact ⟨91, _, rfl, rfl⟩
  | objNil | obj => exact ⟨123, _, rfl, rfl⟩

theorem kind_lt (j : Json) : jsonKind j < 7 := by
  cases j with
  | bool b => cases b <;> decide
  | _ => simp [jsonKind]

theorem ws_kind {c : UInt8} (h : isWs c = true) : charKind c = 7 := by
  simp only [isWs, Bool.or_eq_true, decide_eq_true_eq] at h
  rcases h with ((rfl | rfl) | rfl) | rfl <;> decide

/-- A value does not start with a blank. -/
theorem Den.notWs {C : NumConv} {j : Json} {s : Str} (h : Den C j s) (x : Str) : NotHead isWs (s ++ x) := by
  obtain ⟨c, r, rfl, hc⟩ := h.first
  intro c' r' hcr
  simp only [List.cons_append, List.cons.injEq] at hcr
  obtain ⟨rfl, -⟩ := hcr
  cases hw : isWs c with
  | false => rfl
  | true => have := ws_kind hw; have := kind_lt j; omega

theorem notHead_cons {p : UInt8 → Bool} {c : UInt8} (h : p c = false) (r : Str) : NotHead p (c :: r) := by
  intro c' r' hcr
  simp only [List.cons.injEq] at hcr
  rw [← hcr.1]
  exact h

/-- What can follow a value: the end, a blank or one of `, ] }`. -/
def Stops (x : Str) : Prop := NotHead numChar x

theorem ws_num {c : UInt8} (h : isWs c = true) : numChar c = false := by
  simp only [isWs, Bool.or_eq_true, decide_eq_true_eq] at h
  rcases h with ((rfl | rfl) | rfl) | rfl <;> decide

theorem stops_ws {w : Str} (hw : Ws w) {c : UInt8} (hc : numChar c = false) (r : Str) : Stops (w ++ c :: r) := by
  cases w with
  | nil => exact notHead_cons hc r
  | cons a w => exact notHead_cons (ws_num (hw a (by simp))) _

/-- The statement for one value. -/
def DenUnique (C : NumConv) (n : Nat) : Prop := ∀ j s r j' s' r', s.length ≤ n → Den C j s → Den C j' s' → s ++ r = s' ++ r' → Stops r → Stops r' →
  j = j' ∧ s = s' ∧ r = r'

theorem items_unique {C : NumConv} {n : Nat} (hn : DenUnique C n) {js js' : List Json} {s s' r r' : Str} (h : Items C js s) (h' : Items C js' s')
    (hl : s.length ≤ n) (he : s ++ 93 :: r = s' ++ 93 :: r') : js = js' ∧ s = s' ∧ r = r' := by
  induction js generalizing js' s s' with
  | nil => cases h
  | cons j js ih =>
    cases h with
    | one hw1 hd hw2 =>
      rename_i w1 w2 s
      cases h' with
      | one hw1' hd' hw2' =>
        rename_i w1' w2' s'
        simp only [List.append_assoc] at he
        obtain ⟨rfl, he1⟩ := split_unique he hw1 hw1' (hd.notWs _) (hd'.notWs _)
        obtain ⟨rfl, rfl, he2⟩ := hn _ _ _ _ _ _ (by simp at hl; omega) hd hd' he1 (stops_ws hw2 (by decide) _) (stops_ws hw2' (by decide) _)
        obtain ⟨rfl, he3⟩ := split_unique he2 hw2 hw2' (notHead_cons (by decide) _) (notHead_cons (by decide) _)
        simp only [List.cons.injEq, true_and] at he3
        exact ⟨rfl, rfl, he3⟩
      | more hw1' hd' hw2' hi' =>
        rename_i w1' w2' s' t' j' js'
        simp only [List.append_assoc, List.cons_append] at he
        obtain ⟨rfl, he1⟩ := split_unique he hw1 hw1' (hd.notWs _) (hd'.notWs _)
        obtain ⟨rfl, rfl, he2⟩ := hn _ _ _ _ _ _ (by simp at hl; omega) hd hd' he1 (stops_ws hw2 (by decide) _) (stops_ws hw2' (by decide) _)
        obtain ⟨rfl, he3⟩ := split_unique he2 hw2 hw2' (notHead_cons (by decide) _) (notHead_cons (by decide) _)
        simp at he3
    | more hw1 hd hw2 hi =>
      rename_i w1 w2 s t
      cases h' with
      | one hw1' hd' hw2' =>
        simp only [List.append_assoc, List.cons_append] at he
        obtain ⟨rfl, he1⟩ := split_unique he hw1 hw1' (hd.notWs _) (hd'.notWs _)
        obtain ⟨rfl, rfl, he2⟩ := hn _ _ _ _ _ _ (by simp at hl; omega) hd hd' he1 (stops_ws hw2 (by decide) _) (stops_ws hw2' (by decide) _)
        obtain ⟨rfl, he3⟩ := split_unique he2 hw2 hw2' (notHead_cons (by decide) _) (notHead_cons (by decide) _)
        simp at he3
      | more hw1' hd' hw2' hi' =>
        simp only [List.append_assoc, List.cons_append] at he
        obtain ⟨rfl, he1⟩ := split_unique he hw1 hw1' (hd.notWs _) (hd'.notWs _)
        obtain ⟨rfl, rfl, he2⟩ := hn _ _ _ _ _ _ (by simp at hl; omega) hd hd' he1 (stops_ws hw2 (by decide) _) (stops_ws hw2' (by decide) _)
        obtain ⟨rfl, he3⟩ := split_unique he2 hw2 hw2' (notHead_cons (by decide) _) (notHead_cons (by decide) _)
        simp only [List.cons.injEq, true_and] at he3
        obtain ⟨rfl, rfl, rfl⟩ := ih hi hi' (by simp at hl; omega) he3
        exact ⟨rfl, rfl, rfl⟩

theorem fields_unique {C : NumConv} {n : Nat} (hn : DenUnique C n) {ms ms' : List (Str × Json)} {s s' r r' : Str} (h : Fields C ms s) (h' : Fields C ms' s')
    (hl : s.length ≤ n) (he : s ++ 125 :: r = s' ++ 125 :: r') : ms = ms' ∧ s = s' ∧ r = r' := by
  induction ms generalizing ms' s s' with
  | nil => cases h
  | cons m ms ih =>
    cases h with
    | one hw1 hk hw2 hw3 hd hw4 =>
      cases h' with
      | one hw1' hk' hw2' hw3' hd' hw4' =>
        simp only [List.append_assoc, List.cons_append] at he
        obtain ⟨rfl, he1⟩ := split_unique he hw1 hw1' (notHead_cons (by decide) _) (notHead_cons (by decide) _)
        simp only [List.cons.injEq, true_and] at he1
        obtain ⟨rfl, rfl, he2⟩ := hk.unique hk' he1
        obtain ⟨rfl, he3⟩ := split_unique he2 hw2 hw2' (notHead_cons (by decide) _) (notHead_cons (by decide) _)
        simp only [List.cons.injEq, true_and] at he3
        obtain ⟨rfl, he4⟩ := split_unique he3 hw3 hw3' (hd.notWs _) (hd'.notWs _)
        obtain ⟨rfl, rfl, he5⟩ := hn _ _ _ _ _ _ (by simp at hl; omega) hd hd' he4 (stops_ws hw4 (by decide) _) (stops_ws hw4' (by decide) _)
        obtain ⟨rfl, he6⟩ := split_unique he5 hw4 hw4' (notHead_cons (by decide) _) (notHead_cons (by decide) _)
        simp only [List.cons.injEq, true_and] at he6
        exact ⟨rfl, rfl, he6⟩
      | more hw1' hk' hw2' hw3' hd' hw4' hi' =>
        simp only [List.append_assoc, List.cons_append] at he
        obtain ⟨rfl, he1⟩ := split_unique he hw1 hw1' (notHead_cons (by decide) _) (notHead_cons (by decide) _)
        simp only [List.cons.injEq, true_and] at he1
        obtain ⟨rfl, rfl, he2⟩ := hk.unique hk' he1
        obtain ⟨rfl, he3⟩ := split_unique he2 hw2 hw2' (notHead_cons (by decide) _) (notHead_cons (by decide) _)
        simp only [List.cons.injEq, true_and] at he3
        obtain ⟨rfl, he4⟩ := split_unique he3 hw3 hw3' (hd.notWs _) (hd'.notWs _)
        obtain ⟨rfl, rfl, he5⟩ := hn _ _ _ _ _ _ (by simp at hl; omega) hd hd' he4 (stops_ws hw4 (by decide) _) (stops_ws hw4' (by decide) _)
        obtain ⟨rfl, he6⟩ := split_unique he5 hw4 hw4' (notHead_cons (by decide) _) (notHead_cons (by decide) _)
        simp at he6
    | more hw1 hk hw2 hw3 hd hw4 hi =>
      cases h' with
      | one hw1' hk' hw2' hw3' hd' hw4' =>
        simp only [List.append_assoc, List.cons_append] at he
        obtain ⟨rfl, he1⟩ := split_unique he hw1 hw1' (notHead_cons (by decide) _) (notHead_cons (by decide) _)
        simp only [List.cons.injEq, true_and] at he1
        obtain ⟨rfl, rfl, he2⟩ := hk.unique hk' he1
        obtain ⟨rfl, he3⟩ := split_unique he2 hw2 hw2' (notHead_cons (by decide) _) (notHead_cons (by decide) _)
        simp only [List.cons.injEq, true_and] at he3
        obtain ⟨rfl, he4⟩ := split_unique he3 hw3 hw3' (hd.notWs _) (hd'.notWs _)
        obtain ⟨rfl, rfl, he5⟩ := hn _ _ _ _ _ _ (by simp at hl; omega) hd hd' he4 (stops_ws hw4 (by decide) _) (stops_ws hw4' (by decide) _)
        obtain ⟨rfl, he6⟩ := split_unique he5 hw4 hw4' (notHead_cons (by decide) _) (notHead_cons (by decide) _)
        simp at he6
      | more hw1' hk' hw2' hw3' hd' hw4' hi' =>
        simp only [List.append_assoc, List.cons_append] at he
        obtain ⟨rfl, he1⟩ := split_unique he hw1 hw1' (notHead_cons (by decide) _) (notHead_cons (by decide) _)
        simp only [List.cons.injEq, true_and] at he1
        obtain ⟨rfl, rfl, he2⟩ := hk.unique hk' he1
        obtain ⟨rfl, he3⟩ := split_unique he2 hw2 hw2' (notHead_cons (by decide) _) (notHead_cons (by decide) _)
        simp only [List.cons.injEq, true_and] at he3
        obtain ⟨rfl, he4⟩ := split_unique he3 hw3 hw3' (hd.notWs _) (hd'.notWs _)
        obtain ⟨rfl, rfl, he5⟩ := hn _ _ _ _ _ _ (by simp at hl; omega) hd hd' he4 (stops_ws hw4 (by decide) _) (stops_ws hw4' (by decide) _)
        obtain ⟨rfl, he6⟩ := split_unique he5 hw4 hw4' (notHead_cons (by decide) _) (notHead_cons (by decide) _)
        simp only [List.cons.injEq, true_and] at he6
        obtain ⟨rfl, rfl, rfl⟩ := ih hi hi' (by simp at hl; omega) he6
        exact ⟨rfl, rfl, rfl⟩

theorem items_start {C : NumConv} {js : List Json} {s : Str} (h : Items C js s) : ∃ w x, s = w ++ x ∧ Ws w ∧ ∀ y, NotHead isWs (x ++ y) ∧ NotHead (· == 93) (x ++ y) := by
  have key : ∀ {j s}, Den C j s → ∀ y, NotHead (· == 93) (s ++ y) := by
    intro j s h y
    obtain ⟨c, r, rfl, hc⟩ := h.first
    refine notHead_cons ?_ _
    cases h93 : (c == 93) with
    | false => rfl
    | true => have := eq_of_beq h93; subst this; have := kind_lt j; have : charKind 93 = 7 := by decide
              omega
  cases h with
  | one hw1 hd hw2 => exact ⟨_, _, rfl, hw1, fun y => by rw [List.append_assoc]; exact ⟨hd.notWs _, key hd _⟩⟩
  | more hw1 hd hw2 hi => exact ⟨_, _, rfl, hw1, fun y => by rw [List.append_assoc]; exact ⟨hd.notWs _, key hd _⟩⟩

theorem fields_start {C : NumConv} {ms : List (Str × Json)} {s : Str} (h : Fields C ms s) : ∃ w x, s = w ++ 34 :: x ∧ Ws w := by
  cases h with
  | one hw1 => exact ⟨_, _, rfl, hw1⟩
  | more hw1 => exact ⟨_, _, rfl, hw1⟩

theorem den_unique (C : NumConv) (n : Nat) : DenUnique C n := by
  induction n with
  | zero =>
    intro j s r j' s' r' hl h
    obtain ⟨c, x, rfl, -⟩ := h.first
    simp at hl
  | succ n ih =>
    intro j s r j' s' r' hl h h' he hr hr'
    have hk : jsonKind j = jsonKind j' := by
      obtain ⟨c, x, rfl, hc⟩ := h.first
      obtain ⟨c', x', rfl, hc'⟩ := h'.first
      simp only [List.cons_append, List.cons.injEq] at he
      rw [← hc, ← hc', he.1]
    cases h with
    | null =>
      cases h' with
      | null => exact ⟨rfl, rfl, List.append_cancel_left he⟩
      | _ => cases hk
    | tt =>
      cases h' with
      | tt => exact ⟨rfl, rfl, List.append_cancel_left he⟩
      | _ => cases hk
    | ff =>
      cases h' with
      | ff => exact ⟨rfl, rfl, List.append_cancel_left he⟩
      | _ => cases hk
    | num h =>
      cases h' with
      | num h' =>
        obtain ⟨rfl, rfl⟩ := split_unique he h.chars h'.chars hr hr'
        exact ⟨by rw [h.unique h'], rfl, rfl⟩
      | _ => cases hk
    | str h =>
      cases h' with
      | str h' =>
        simp only [List.cons_append, List.append_assoc, List.nil_append, List.cons.injEq, true_and] at he
        obtain ⟨rfl, rfl, rfl⟩ := h.unique h' he
        exact ⟨rfl, rfl, rfl⟩
      | _ => cases hk
    | arrNil hw =>
      cases h' with
      | arrNil hw' =>
        simp only [List.cons_append, List.append_assoc, List.nil_append, List.cons.injEq, true_and] at he
        obtain ⟨rfl, he1⟩ := split_unique he hw hw' (notHead_cons (by decide) _) (notHead_cons (by decide) _)
        simp only [List.cons.injEq, true_and] at he1
        exact ⟨rfl, rfl, he1⟩
      | arr hi =>
        obtain ⟨w, x, rfl, hw', hx⟩ := items_start hi
        simp only [List.cons_append, List.append_assoc, List.nil_append, List.cons.injEq, true_and] at he
        obtain ⟨-, he1⟩ := split_unique he hw hw' (notHead_cons (by decide) _) (hx _).1
        have := (hx (93 :: r')).2 93 r (by rw [← he1])
        simp at this
      | _ => cases hk
    | arr hi =>
      cases h' with
      | arrNil hw =>
        obtain ⟨w, x, rfl, hw', hx⟩ := items_start hi
        simp only [List.cons_append, List.append_assoc, List.nil_append, List.cons.injEq, true_and] at he
        obtain ⟨-, he1⟩ := split_unique he.symm hw hw' (notHead_cons (by decide) _) (hx _).1
        have := (hx (93 :: r)).2 93 r' (by rw [← he1])
        simp at this
      | arr hi' =>
        simp only [List.cons_append, List.append_assoc, List.nil_append, List.cons.injEq, true_and] at he
        obtain ⟨rfl, rfl, rfl⟩ := items_unique ih hi hi' (by simp at hl; omega) he
        exact ⟨rfl, rfl, rfl⟩
      | _ => cases hk
    | objNil hw =>
      cases h' with
      | objNil hw' =>
        simp only [List.cons_append, List.append_assoc, List.nil_append, List.cons.injEq, true_and] at he
        obtain ⟨rfl, he1⟩ := split_unique he hw hw' (notHead_cons (by decide) _) (notHead_cons (by decide) _)
        simp only [List.cons.injEq, true_and] at he1
        exact ⟨rfl, rfl, he1⟩
      | obj hi =>
        obtain ⟨w, x, rfl, hw'⟩ := fields_start hi
        simp only [List.cons_append, List.append_assoc, List.nil_append, List.cons.injEq, true_and] at he
        obtain ⟨-, he1⟩ := split_unique he hw hw' (notHead_cons (by decide) _) (notHead_cons (by decide) _)
        simp at he1
      | _ => cases hk
    | obj hi =>
      cases h' with
      | objNil hw =>
        obtain ⟨w, x, rfl, hw'⟩ := fields_start hi
        simp only [List.cons_append, List.append_assoc, List.nil_append, List.cons.injEq, true_and] at he
        obtain ⟨-, he1⟩ := split_unique he.symm hw hw' (notHead_cons (by decide) _) (notHead_cons (by decide) _)
        simp at he1
      | obj hi' =>
        simp only [List.cons_append, List.append_assoc, List.nil_append, List.cons.injEq, true_and] at he
        obtain ⟨rfl, rfl, rfl⟩ := fields_unique ih hi hi' (by simp at hl; omega) he
        exact ⟨rfl, rfl, rfl⟩
      | _ => cases hk

theorem stops_of_ws {w : Str} (hw : Ws w) : Stops w := by
  cases w with
  | nil => intro c r h; cases h
  | cons a w => exact notHead_cons (ws_num (hw a (by simp))) w

/-- The grammar is unambiguous. -/
theorem Denotes.unique {C : NumConv} {j j' : Json} {s : Str} (h : Denotes C j s) (h' : Denotes C j' s) : j = j' := by
  obtain ⟨w1, t, w2, hw1, hd, hw2, rfl⟩ := h
  obtain ⟨w1', t', w2', hw1', hd', hw2', he1⟩ := h'
  obtain ⟨rfl, he2⟩ := split_unique he1 hw1 hw1' (hd.notWs _) (hd'.notWs _)
  exact (den_unique C _ _ _ _ _ _ _ (Nat.le_refl _) hd hd' he2 (stops_of_ws hw2) (stops_of_ws hw2')).1

end Verif.Text
