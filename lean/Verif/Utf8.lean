import Verif.TextLemmas
import Verif.RoundTrip

/-!
# UTF-8

The grammar of RFC 3629 section 4 on bytes, and where it holds for texts and for the strings of documents.
-/

namespace Verif.Text
open Verif.Core Verif.Numeric

/-- `UTF8-tail` of RFC 3629. -/
def IsTail (c : UInt8) : Prop := 0x80 ≤ c.toNat ∧ c.toNat ≤ 0xBF

/-- `UTF8-char` of RFC 3629. -/
inductive Utf8Char : Str → Prop
  | one (a : UInt8) : a.toNat ≤ 0x7F → Utf8Char [a]
  | two (a b : UInt8) : 0xC2 ≤ a.toNat → a.toNat ≤ 0xDF → IsTail b → Utf8Char [a, b]
  | three (a b c : UInt8) : (a.toNat = 0xE0 ∧ 0xA0 ≤ b.toNat ∧ b.toNat ≤ 0xBF ∨ 0xE1 ≤ a.toNat ∧ a.toNat ≤ 0xEC ∧ IsTail b ∨
      a.toNat = 0xED ∧ 0x80 ≤ b.toNat ∧ b.toNat ≤ 0x9F ∨ 0xEE ≤ a.toNat ∧ a.toNat ≤ 0xEF ∧ IsTail b) → IsTail c → Utf8Char [a, b, c]
  | four (a b c d : UInt8) : (a.toNat = 0xF0 ∧ 0x90 ≤ b.toNat ∧ b.toNat ≤ 0xBF ∨ 0xF1 ≤ a.toNat ∧ a.toNat ≤ 0xF3 ∧ IsTail b ∨
      a.toNat = 0xF4 ∧ 0x80 ≤ b.toNat ∧ b.toNat ≤ 0x8F) → IsTail c → IsTail d → Utf8Char [a, b, c, d]

/-- `UTF8-octets` of RFC 3629. -/
inductive Utf8 : Str → Prop
  | nil : Utf8 []
  | cons {c s : Str} : Utf8Char c → Utf8 s → Utf8 (c ++ s)

/-! ## Where a text can be cut -/

theorem Utf8Char.split {c : Str} (h : Utf8Char c) : ∃ a r, c = a :: r ∧ ¬ IsTail a ∧ ∀ b ∈ r, IsTail b := by
  unfold IsTail
  cases h with
  | one a h => exact ⟨a, [], rfl, by omega, by simp⟩
  | two a b h1 h2 h3 => exact ⟨a, [b], rfl, by omega, by simpa [IsTail] using h3⟩
  | three a b c h1 h2 =>
    refine ⟨a, [b, c], rfl, by omega, ?_⟩
    unfold IsTail at h1 h2
    simp only [List.mem_cons, List.not_mem_nil, or_false, forall_eq_or_imp, forall_eq]
    omega
  | four a b c d h1 h2 h3 =>
    refine ⟨a, [b, c, d], rfl, by omega, ?_⟩
    unfold IsTail at h1 h2 h3
    simp only [List.mem_cons, List.not_mem_nil, or_false, forall_eq_or_imp, forall_eq]
    omega

theorem Utf8.append {a b : Str} (ha : Utf8 a) (hb : Utf8 b) : Utf8 (a ++ b) := by
  induction ha with
  | nil => exact hb
  | cons hc _ ih =>
    rw [List.append_assoc]
    exact .cons hc ih

/-- A text can be cut before every byte that starts a character. -/
theorem utf8_append {a b : Str} (hb : ∀ x r, b = x :: r → ¬ IsTail x) : Utf8 (a ++ b) ↔ Utf8 a ∧ Utf8 b := by
  refine ⟨fun h => ?_, fun h => h.1.append h.2⟩
  generalize hs : a ++ b = s at h
  induction h generalizing a with
  | nil =>
    obtain ⟨rfl, rfl⟩ := List.append_eq_nil_iff.1 hs
    exact ⟨.nil, .nil⟩
  | @cons c s hc h ih =>
    rcases List.append_eq_append_iff.1 hs with ⟨c', h1, h2⟩ | ⟨a', h1, h2⟩
    · cases a with
      | nil =>
        refine ⟨.nil, ?_⟩
        rw [h2, ← List.nil_append c', ← h1]
        exact .cons hc h
      | cons x a =>
        cases c' with
        | nil =>
          rw [List.append_nil] at h1
          rw [List.nil_append] at h2
          rw [← h1, h2]
          refine ⟨?_, h⟩
          rw [← List.append_nil c]
          exact .cons hc .nil
        | cons y c' =>
          obtain ⟨z, r, h3, -, h5⟩ := hc.split
          rw [h1, List.cons_append, List.cons.injEq] at h3
          exact absurd (h5 y (by rw [← h3.2]; simp)) (hb y (c' ++ s) h2)
    · obtain ⟨h3, h4⟩ := ih h2.symm
      rw [h1]
      exact ⟨.cons hc h3, h4⟩

theorem utf8_cons_ascii {c : UInt8} (hc : c.toNat ≤ 0x7F) (s : Str) : Utf8 (c :: s) ↔ Utf8 s := by
  refine ⟨fun h => ?_, fun h => .cons (.one c hc) h⟩
  generalize hs : c :: s = t at h
  cases h with
  | nil => cases hs
  | @cons d r hd hr =>
    cases hd with
    | one a ha =>
      cases hs
      exact hr
    | two a b h1 => cases hs; omega
    | three a b d h1 => cases hs; omega
    | four a b d e h1 => cases hs; omega

/-- A text can be cut before an ASCII character. -/
theorem utf8_append_ascii (a : Str) {c : UInt8} (hc : c.toNat ≤ 0x7F) (s : Str) : Utf8 (a ++ c :: s) ↔ Utf8 a ∧ Utf8 s := by
  rw [utf8_append, utf8_cons_ascii hc]
  intro x r hx
  cases hx
  unfold IsTail
  omega

/-- ASCII. -/
def Ascii (s : Str) : Prop := ∀ c ∈ s, c.toNat ≤ 0x7F

theorem utf8_ascii_append {a : Str} (ha : Ascii a) (b : Str) : Utf8 (a ++ b) ↔ Utf8 b := by
  induction a with
  | nil => rfl
  | cons c a ih => rw [List.cons_append, utf8_cons_ascii (ha c (by simp)), ih fun x hx => ha x (by simp [hx])]

theorem Ascii.utf8 {a : Str} (ha : Ascii a) : Utf8 a := by
  rw [← List.append_nil a, utf8_ascii_append ha]
  exact .nil

/-- An ASCII text after a text. -/
theorem utf8_append_of_ascii (a : Str) {b : Str} (hb : Ascii b) : Utf8 (a ++ b) ↔ Utf8 a := by
  rw [utf8_append]
  · exact ⟨fun h => h.1, fun h => ⟨h, hb.utf8⟩⟩
  · intro x r hx
    have := hb x (by rw [hx]; simp)
    unfold IsTail
    omega

/-! ## Code points -/

/-- A Unicode scalar value. -/
def Scalar (n : Nat) : Prop := n < 0x110000 ∧ ¬ (0xD800 ≤ n ∧ n ≤ 0xDFFF)

theorem utf8Char_utf8 {n : Nat} (h : Scalar n) : Utf8Char (utf8 n) := by
  unfold Scalar at h
  unfold utf8
  split
  · exact .one _ (by simp only [UInt8.toNat_ofNat']; omega)
  · split
    · refine .two _ _ ?_ ?_ ?_
      · simp only [UInt8.toNat_ofNat']; omega
      · simp only [UInt8.toNat_ofNat']; omega
      · unfold IsTail; simp only [UInt8.toNat_ofNat']; omega
    · split
      · refine .three _ _ _ ?_ ?_
        · unfold IsTail; simp only [UInt8.toNat_ofNat']; omega
        · unfold IsTail; simp only [UInt8.toNat_ofNat']; omega
      · refine .four _ _ _ _ ?_ ?_ ?_
        · unfold IsTail; simp only [UInt8.toNat_ofNat']; omega
        · unfold IsTail; simp only [UInt8.toNat_ofNat']; omega
        · unfold IsTail; simp only [UInt8.toNat_ofNat']; omega

theorem byte_eq {a : UInt8} {n : Nat} (h : a.toNat = n) : a = UInt8.ofNat n := by
  rw [← h, UInt8.ofNat_toNat]

/-- The grammar describes the encodings of the scalar values. -/
theorem utf8Char_iff (c : Str) : Utf8Char c ↔ ∃ n, Scalar n ∧ c = utf8 n := by
  constructor
  · intro h
    unfold Scalar
    cases h with
    | one a h => exact ⟨a.toNat, by omega, by rw [utf8, if_pos (by omega), UInt8.ofNat_toNat]⟩
    | two a b h1 h2 h3 =>
      unfold IsTail at h3
      refine ⟨(a.toNat - 0xC0) * 64 + (b.toNat - 0x80), by omega, ?_⟩
      generalize hn : (a.toNat - 0xC0) * 64 + (b.toNat - 0x80) = n
      rw [utf8, if_neg (by omega), if_pos (by omega), ← byte_eq (a := a) (by omega), ← byte_eq (a := b) (by omega)]
    | three a b c h1 h2 =>
      unfold IsTail at h1 h2
      refine ⟨(a.toNat - 0xE0) * 4096 + (b.toNat - 0x80) * 64 + (c.toNat - 0x80), by omega, ?_⟩
      generalize hn : (a.toNat - 0xE0) * 4096 + (b.toNat - 0x80) * 64 + (c.toNat - 0x80) = n
      rw [utf8, if_neg (by omega), if_neg (by omega), if_pos (by omega), ← byte_eq (a := a) (by omega), ← byte_eq (a := b) (by omega), ← byte_eq (a := c) (by omega)]
    | four a b c d h1 h2 h3 =>
      unfold IsTail at h1 h2 h3
      refine ⟨(a.toNat - 0xF0) * 262144 + (b.toNat - 0x80) * 4096 + (c.toNat - 0x80) * 64 + (d.toNat - 0x80), by omega, ?_⟩
      generalize hn : (a.toNat - 0xF0) * 262144 + (b.toNat - 0x80) * 4096 + (c.toNat - 0x80) * 64 + (d.toNat - 0x80) = n
      rw [utf8, if_neg (by omega), if_neg (by omega), if_neg (by omega), ← byte_eq (a := a) (by omega), ← byte_eq (a := b) (by omega), ← byte_eq (a := c) (by omega),
        ← byte_eq (a := d) (by omega)]
  · rintro ⟨n, hn, rfl⟩
    exact utf8Char_utf8 hn

/-- Valid texts are the encodings of sequences of scalar values. -/
theorem utf8_iff (s : Str) : Utf8 s ↔ ∃ ns : List Nat, (∀ n ∈ ns, Scalar n) ∧ s = ns.flatMap utf8 := by
  constructor
  · intro h
    induction h with
    | nil => exact ⟨[], by simp, rfl⟩
    | cons hc _ ih =>
      obtain ⟨n, hn, rfl⟩ := (utf8Char_iff _).1 hc
      obtain ⟨ns, hns, rfl⟩ := ih
      exact ⟨n :: ns, by simpa using ⟨hn, hns⟩, by simp⟩
  · rintro ⟨ns, hns, rfl⟩
    induction ns with
    | nil => exact .nil
    | cons n ns ih =>
      rw [List.flatMap_cons]
      exact .cons (utf8Char_utf8 (hns n (by simp))) (ih fun m hm => hns m (by simp [hm]))

/-! ## Strings in quotes -/

/-- The first byte tells the length. -/
theorem Utf8Char.length_eq {a : UInt8} {r r' : Str} (h : Utf8Char (a :: r)) (h' : Utf8Char (a :: r')) : r.length = r'.length := by
  cases h <;> cases h' <;> first | rfl | omega

theorem utf8_char_append {c : Str} (hc : Utf8Char c) (s : Str) : Utf8 (c ++ s) ↔ Utf8 s := by
  refine ⟨fun h => ?_, fun h => .cons hc h⟩
  obtain ⟨x, r, rfl, -, -⟩ := hc.split
  generalize ht : (x :: r) ++ s = t at h
  cases h with
  | nil => cases ht
  | @cons d u hd hu =>
    obtain ⟨y, r', rfl, -, -⟩ := hd.split
    rw [List.cons_append, List.cons_append, List.cons.injEq] at ht
    obtain ⟨rfl, ht⟩ := ht
    rw [(List.append_inj ht (hc.length_eq hd)).2]
    exact hu

theorem utf8_append_char (a : Str) {c : Str} (hc : Utf8Char c) (s : Str) : Utf8 (a ++ (c ++ s)) ↔ Utf8 a ∧ Utf8 s := by
  rw [utf8_append, utf8_char_append hc]
  obtain ⟨x, r, rfl, h2, -⟩ := hc.split
  intro y r' h
  cases h
  exact h2

theorem escaped_ascii {e c : UInt8} (h : escaped e = some c) : e.toNat ≤ 0x7F ∧ c.toNat ≤ 0x7F := by
  have : ∀ e : UInt8, ∀ c, escaped e = some c → e.toNat ≤ 0x7F ∧ c.toNat ≤ 0x7F := by
    intro e c h
    unfold escaped at h
    repeat' split at h
    all_goals first | (rename_i he; subst he; cases h; decide) | skip
    cases h
  exact this e c h

theorem hexValue_ascii {c : UInt8} {n : Nat} (h : hexValue c = some n) : c.toNat ≤ 0x7F ∧ n < 16 := by
  unfold hexValue isDigit at h
  simp only [Bool.and_eq_true, decide_eq_true_eq] at h
  repeat' split at h
  all_goals simp only [Option.some.injEq, reduceCtorEq] at h
  all_goals omega

theorem hex4_ascii {a b c d : UInt8} {n : Nat} (h : hex4 a b c d = some n) :
    (a.toNat ≤ 0x7F ∧ b.toNat ≤ 0x7F ∧ c.toNat ≤ 0x7F ∧ d.toNat ≤ 0x7F) ∧ n < 0x10000 := by
  unfold hex4 at h
  split at h
  · rename_i h1 h2 h3 h4
    simp only [Option.some.injEq] at h
    have := hexValue_ascii h1
    have := hexValue_ascii h2
    have := hexValue_ascii h3
    have := hexValue_ascii h4
    omega
  · cases h

/-- The text of a string is valid iff the string is, whatever stands before them. -/
theorem Chars.utf8_iff {d t : Str} (h : Chars d t) (pre : Str) : Utf8 (pre ++ t) ↔ Utf8 (pre ++ d) := by
  induction h generalizing pre with
  | nil => rfl
  | @plain c d t _ _ _ _ ih =>
    have := ih (pre ++ [c])
    simpa using this
  | esc c e he _ ih =>
    obtain ⟨h1, h2⟩ := escaped_ascii he
    rw [utf8_append_ascii pre h2, utf8_append_ascii pre (by decide), utf8_cons_ascii h1]
    exact and_congr_right fun _ => ih []
  | unicode h1 h2 h3 h4 n hn hs _ ih =>
    obtain ⟨⟨a1, a2, a3, a4⟩, hlt⟩ := hex4_ascii hn
    rw [utf8_append_char pre (utf8Char_utf8 ⟨by omega, hs⟩), utf8_append_ascii pre (by decide), utf8_cons_ascii (by decide), utf8_cons_ascii a1,
      utf8_cons_ascii a2, utf8_cons_ascii a3, utf8_cons_ascii a4]
    exact and_congr_right fun _ => ih []
  | surrogates h1 h2 h3 h4 l1 l2 l3 l4 n m hn hm r1 r2 _ ih =>
    obtain ⟨⟨a1, a2, a3, a4⟩, -⟩ := hex4_ascii hn
    obtain ⟨⟨b1, b2, b3, b4⟩, -⟩ := hex4_ascii hm
    rw [utf8_append_char pre (utf8Char_utf8 ⟨by omega, by omega⟩), utf8_append_ascii pre (by decide), utf8_cons_ascii (by decide), utf8_cons_ascii a1,
      utf8_cons_ascii a2, utf8_cons_ascii a3, utf8_cons_ascii a4, utf8_cons_ascii (by decide), utf8_cons_ascii (by decide), utf8_cons_ascii b1,
      utf8_cons_ascii b2, utf8_cons_ascii b3, utf8_cons_ascii b4]
    exact and_congr_right fun _ => ih []

/-! ## Documents -/

mutual
/-- The strings and keys of a document. -/
def strings : Json → List Str
  | .str s => [s]
  | .arr js => stringsAll js
  | .obj ms => stringsFields ms
  | _ => []

/-- `strings` for elements. -/
def stringsAll : List Json → List Str
  | [] => []
  | j :: js => strings j ++ stringsAll js

/-- `strings` for members. -/
def stringsFields : List (Str × Json) → List Str
  | [] => []
  | (k, j) :: ms => k :: (strings j ++ stringsFields ms)
end

theorem Ws.ascii {w : Str} (h : Ws w) : Ascii w := by
  intro c hc
  have := h c hc
  unfold isWs at this
  simp only [Bool.or_eq_true, decide_eq_true_eq] at this
  rcases this with ((rfl | rfl) | rfl) | rfl <;> decide

theorem digits_ascii {s : Str} (h : s.all isDigit = true) : Ascii s := by
  intro c hc
  have := List.all_eq_true.1 h c hc
  unfold isDigit at this
  simp only [Bool.and_eq_true, decide_eq_true_eq] at this
  omega

theorem Ascii.append {a b : Str} (ha : Ascii a) (hb : Ascii b) : Ascii (a ++ b) := by
  intro c hc
  rcases List.mem_append.1 hc with h | h
  · exact ha c h
  · exact hb c h

theorem Ascii.cons {c : UInt8} {s : Str} (hc : c.toNat ≤ 0x7F) (hs : Ascii s) : Ascii (c :: s) := by
  intro x hx
  rcases List.mem_cons.1 hx with rfl | h
  · exact hc
  · exact hs x h

theorem minus_ascii (neg : Bool) : Ascii (minus neg) := by cases neg <;> simp [minus, Ascii]

theorem IntPart.ascii {s : Str} (h : IntPart s) : Ascii s := by
  rcases h with rfl | ⟨c, r, rfl, h1, -, h2⟩
  · simp [Ascii]
  · exact digits_ascii (by simp [h1, h2])

theorem FracPart.ascii {s : Str} (h : FracPart s) : Ascii s := by
  rcases h with rfl | ⟨d, rfl, -, h2⟩
  · simp [Ascii]
  · exact (digits_ascii h2).cons (by decide)

theorem ExpPart.ascii {s : Str} (h : ExpPart s) : Ascii s := by
  rcases h with rfl | ⟨e, sg, d, rfl, he, hsg, -, h2⟩
  · simp [Ascii]
  · refine Ascii.cons (by rcases he with rfl | rfl <;> decide) (Ascii.append ?_ (digits_ascii h2))
    rcases hsg with rfl | rfl | rfl <;> simp [Ascii]

theorem NumText.ascii {C : NumConv} {n : JsonNum} {s : Str} (h : NumText C n s) : Ascii s := by
  cases h with
  | int neg i hi => exact (minus_ascii neg).append hi.ascii
  | big neg i f hi => exact (minus_ascii neg).append hi.ascii
  | real neg i fr ex f hi hf he => exact (((minus_ascii neg).append hi.ascii).append hf.ascii).append he.ascii

mutual
theorem Den.utf8_iff {C : NumConv} {j : Json} {s : Str} (h : Den C j s) : Utf8 s ↔ ∀ x ∈ strings j, Utf8 x := by
  cases h with
  | null => exact ⟨fun _ x hx => by simp [strings] at hx, fun _ => Ascii.utf8 (by simp [Ascii, lit])⟩
  | tt => exact ⟨fun _ x hx => by simp [strings] at hx, fun _ => Ascii.utf8 (by simp [Ascii, lit])⟩
  | ff => exact ⟨fun _ x hx => by simp [strings] at hx, fun _ => Ascii.utf8 (by simp [Ascii, lit])⟩
  | num hn => exact ⟨fun _ x hx => by simp [strings] at hx, fun _ => hn.ascii.utf8⟩
  | str hc =>
    have := hc.utf8_iff []
    rw [utf8_cons_ascii (by decide), utf8_append_of_ascii _ (by simp [Ascii])]
    simpa [strings] using this
  | arrNil hw =>
    rw [utf8_cons_ascii (by decide), utf8_append_of_ascii _ (by simp [Ascii])]
    exact ⟨fun _ x hx => by simp [strings, stringsAll] at hx, fun _ => hw.ascii.utf8⟩
  | arr hi =>
    rw [utf8_cons_ascii (by decide), utf8_append_of_ascii _ (by simp [Ascii]), strings]
    exact Items.utf8_iff hi
  | objNil hw =>
    rw [utf8_cons_ascii (by decide), utf8_append_of_ascii _ (by simp [Ascii])]
    exact ⟨fun _ x hx => by simp [strings, stringsFields] at hx, fun _ => hw.ascii.utf8⟩
  | obj hi =>
    rw [utf8_cons_ascii (by decide), utf8_append_of_ascii _ (by simp [Ascii]), strings]
    exact Fields.utf8_iff hi

theorem Items.utf8_iff {C : NumConv} {js : List Json} {s : Str} (h : Items C js s) : Utf8 s ↔ ∀ x ∈ stringsAll js, Utf8 x := by
  cases h with
  | one h1 hd h2 =>
    rw [utf8_ascii_append h1.ascii, utf8_append_of_ascii _ h2.ascii, Den.utf8_iff hd]
    simp [stringsAll]
  | @more w1 w2 s t j js h1 hd h2 hi =>
    rw [utf8_ascii_append h1.ascii, ← List.append_assoc, utf8_append_ascii _ (by decide), utf8_append_of_ascii _ h2.ascii, Den.utf8_iff hd, Items.utf8_iff hi]
    simp only [stringsAll, List.mem_append, or_imp, forall_and]

theorem Fields.utf8_iff {C : NumConv} {ms : List (Str × Json)} {s : Str} (h : Fields C ms s) : Utf8 s ↔ ∀ x ∈ stringsFields ms, Utf8 x := by
  cases h with
  | one h1 hk h2 h3 hd h4 =>
    have := hk.utf8_iff []
    rw [List.nil_append, List.nil_append] at this
    rw [utf8_ascii_append h1.ascii, utf8_cons_ascii (by decide), utf8_append_ascii _ (by decide), utf8_ascii_append h2.ascii, utf8_cons_ascii (by decide),
      utf8_ascii_append h3.ascii, utf8_append_of_ascii _ h4.ascii, Den.utf8_iff hd, this]
    simp [stringsFields]
  | @more w1 w2 w3 w4 k kt s t j ms h1 hk h2 h3 hd h4 hi =>
    have := hk.utf8_iff []
    rw [List.nil_append, List.nil_append] at this
    rw [utf8_ascii_append h1.ascii, utf8_cons_ascii (by decide), utf8_append_ascii _ (by decide), utf8_ascii_append h2.ascii, utf8_cons_ascii (by decide),
      utf8_ascii_append h3.ascii, ← List.append_assoc s, utf8_append_ascii _ (by decide), utf8_append_of_ascii _ h4.ascii, Den.utf8_iff hd, Fields.utf8_iff hi, this]
    simp only [stringsFields, List.mem_cons, List.mem_append, or_imp, forall_and, forall_eq]
end

theorem Denotes.utf8_iff {C : NumConv} {j : Json} {s : Str} (h : Denotes C j s) : Utf8 s ↔ ∀ x ∈ strings j, Utf8 x := by
  obtain ⟨w1, t, w2, h1, h2, h3, rfl⟩ := h
  rw [utf8_ascii_append h1.ascii, utf8_append_of_ascii _ h3.ascii, h2.utf8_iff]

/-! ## Values -/

/-- The texts that the program and the value contribute to a document: strings, keys, names of members and enumerators, and the texts of
times and dates outside of the years 0 to 9999, for which `std::to_chars` has no room. -/
inductive Contributes (env : Env) : Val → Ty → Str → Prop
  | str (s : Str) : Contributes env (.prim (.str s)) (.prim .str) s
  | name (v : Int) (table : EnumConv.Table) (s : Str) : (v, s) ∈ table → Contributes env (.prim (.int v)) (.prim (.enumStr table)) s
  | time (t : Int) : ¬ (Props.minSecond ≤ DateTime.toTimeT env.clk t ∧ DateTime.toTimeT env.clk t < Props.endSecond) →
      Contributes env (.prim (.time t)) (.prim .time) (DateTime.toIsoDatetime env.junk env.clk t)
  | date (y : Int) (m d : Nat) (s : Str) : ¬ (0 ≤ y ∧ y < 10000) ∨ ¬ DateTime.ValidDate y m d → DateTime.formatDate env.junk env.clk y m d = some s →
      Contributes env (.prim (.date y m d)) (.prim .date) s
  | vec (vs : List Val) (t : Ty) (v : Val) (s : Str) : v ∈ vs → Contributes env v t s → Contributes env (.seq vs) (.vec t) s
  | arr (vs : List Val) (n : Nat) (t : Ty) (v : Val) (s : Str) : v ∈ vs → Contributes env v t s → Contributes env (.tup vs) (.arr n t) s
  | tuple (vs : List Val) (ts : List Ty) (i : Nat) (v : Val) (t : Ty) (s : Str) : vs[i]? = some v → ts[i]? = some t → Contributes env v t s →
      Contributes env (.tup vs) (.tuple ts) s
  | set (vs : List Val) (t : Ty) (v : Val) (s : Str) : v ∈ vs → Contributes env v t s → Contributes env (.set vs) (.set t) s
  | mapKey (kvs : List (Str × Val)) (o : Bool) (t : Ty) (k : Str) (v : Val) : (k, v) ∈ kvs → Contributes env (.map kvs) (.map o t) k
  | map (kvs : List (Str × Val)) (o : Bool) (t : Ty) (k : Str) (v : Val) (s : Str) : (k, v) ∈ kvs → Contributes env v t s → Contributes env (.map kvs) (.map o t) s
  | dictKey (kvs : List (Str × Val)) (t : Ty) (k : Str) (v : Val) : (k, v) ∈ kvs → Contributes env (.dict kvs) (.dict t) k
  | dict (kvs : List (Str × Val)) (t : Ty) (k : Str) (v : Val) (s : Str) : (k, v) ∈ kvs → Contributes env v t s → Contributes env (.dict kvs) (.dict t) s
  | alt (i : Nat) (v : Val) (ts : List Ty) (t : Ty) (s : Str) : ts[i]? = some t → Contributes env v t s → Contributes env (.alt i v) (.variant ts) s
  | memberName (vs : List Val) (c : Nat) (m : Member) : m ∈ env.members c → Contributes env (.obj vs) (.cls c) m.name
  | member (vs : List Val) (c i : Nat) (m : Member) (v : Val) (s : Str) : (env.members c)[i]? = some m → vs[i]? = some v ∨ vs[i]? = some (.present v) →
      Contributes env v m.ty s → Contributes env (.obj vs) (.cls c) s
  | uptr (v : Val) (t : Ty) (s : Str) : Contributes env v t s → Contributes env (.uptr v) (.uptr t) s
  | sptr (a : Nat) (v : Val) (t : Ty) (s : Str) : Contributes env v t s → Contributes env (.sptr a v) (.sptr t) s

/-- All names on a path are valid. -/
def SegsUtf8 (segs : List Seg) : Prop := ∀ n, .named n ∈ segs → Utf8 n

/-- All paths of a table are valid. -/
def TabUtf8 (σ : STab) : Prop := ∀ p ∈ σ, SegsUtf8 p.2

/-- What is known of the outcome of a serializer: the table and the strings of the result are valid. -/
def OutUtf8 {α : Type} (strs : α → List Str) : SRes α → Prop
  | .ub => True
  | .done σ r => TabUtf8 σ ∧ ∀ a, r = some a → ∀ x ∈ strs a, Utf8 x

theorem decimal_ascii (n : Nat) : Ascii (decimal n) := (intPart_decimal n).ascii

theorem pathStr_utf8 {segs : List Seg} (h : SegsUtf8 segs) : Utf8 (pathStr segs) := by
  unfold pathStr
  split
  · exact Ascii.utf8 (by simp [Ascii])
  · have : ∀ l : List Seg, (∀ n, .named n ∈ l → Utf8 n) → Utf8 (segsText l) := by
      intro l
      induction l with
      | nil => exact fun _ => .nil
      | cons g l ih =>
        intro hl
        have hr := ih fun n hn => hl n (by simp [hn])
        unfold segsText at hr ⊢
        rw [List.map_cons, List.flatten_cons]
        refine Utf8.append ?_ hr
        cases g with
        | named n =>
          rw [segText, utf8_cons_ascii (by decide)]
          exact hl n (by simp)
        | index i =>
          rw [segText, utf8_cons_ascii (by decide)]
          split
          · exact (decimal_ascii i).utf8
          · exact .nil
    exact this _ fun n hn => h n (by simpa using hn)

theorem segs_cons_index {segs : List Seg} (h : SegsUtf8 segs) (i : Nat) : SegsUtf8 (.index i :: segs) := by
  intro n hn
  rcases List.mem_cons.1 hn with hn | hn
  · cases hn
  · exact h n hn

theorem segs_cons_name {segs : List Seg} (h : SegsUtf8 segs) {k : Str} (hk : Utf8 k) : SegsUtf8 (Seg.name k :: segs) := by
  intro n hn
  rcases List.mem_cons.1 hn with hn | hn
  · unfold Seg.name at hn
    split at hn
    · cases hn
    · cases hn
      exact hk
  · exact h n hn

theorem tab_put {σ : STab} (h : TabUtf8 σ) (a : Nat) {segs : List Seg} (hs : SegsUtf8 segs) : TabUtf8 (σ.put a segs) := by
  unfold STab.put
  split
  · exact h
  · intro p hp
    rcases List.mem_cons.1 hp with rfl | hp
    · exact hs
    · exact h p hp

theorem OutUtf8.map {α β : Type} {f : α → β} {s1 : α → List Str} {s2 : β → List Str} {r : SRes α} (h : OutUtf8 s1 r)
    (hf : ∀ a, (∀ x ∈ s1 a, Utf8 x) → ∀ x ∈ s2 (f a), Utf8 x) : OutUtf8 s2 (r.map f) := by
  cases r with
  | ub => trivial
  | done σ r =>
    refine ⟨h.1, fun b hb => ?_⟩
    cases r with
    | none => cases hb
    | some a =>
      cases hb
      exact hf a (h.2 a rfl)

theorem alphabet_ascii (i : Nat) : (Base64.Spec.alphabet i).toNat ≤ 0x7F := by
  unfold Base64.Spec.alphabet
  repeat' split
  all_goals first | decide | (simp only [UInt8.toNat_ofNat']; omega)

theorem base64_ascii (bs : Str) : Ascii (Base64.Spec.text bs) := by
  intro c hc
  unfold Base64.Spec.text Base64.Spec.unpadded at hc
  rcases List.mem_append.1 hc with h | h
  · obtain ⟨g, -, rfl⟩ := List.mem_map.1 h
    exact alphabet_ascii _
  · rw [List.eq_of_mem_replicate h]
    decide

theorem digitChar_ascii (n : Nat) : (digitChar n).toNat ≤ 0x7F := by
  unfold digitChar
  simp only [UInt8.toNat_ofNat']
  omega

theorem two_ascii (n : Nat) : Ascii (DateTime.two n) := by
  simp only [DateTime.two, Ascii, List.mem_cons, List.not_mem_nil, or_false, forall_eq_or_imp, forall_eq]
  exact ⟨digitChar_ascii _, digitChar_ascii _⟩

theorem four_ascii (n : Nat) : Ascii (DateTime.four n) := by
  simp only [DateTime.four, Ascii, List.mem_cons, List.not_mem_nil, or_false, forall_eq_or_imp, forall_eq]
  exact ⟨digitChar_ascii _, digitChar_ascii _, digitChar_ascii _, digitChar_ascii _⟩

theorem enumName_mem (table : EnumConv.Table) (v : Int) : EnumConv.enumName table v = [] ∨ (v, EnumConv.enumName table v) ∈ table := by
  induction table with
  | nil => exact .inl rfl
  | cons p table ih =>
    rw [EnumConv.enumName]
    split
    · rename_i h
      obtain ⟨w, n⟩ := p
      simp only at h
      subst h
      exact .inr (by simp)
    · rcases ih with h | h
      · exact .inl h
      · exact .inr (List.mem_cons_of_mem _ h)

theorem isoText_ascii (sep : UInt8) (hsep : sep.toNat ≤ 0x7F) (y m d h mi s : Nat) : Ascii (Props.isoText sep y m d h mi s) := by
  unfold Props.isoText
  have h1 : ∀ c : UInt8, c.toNat ≤ 0x7F → Ascii [c] := fun c hc => Ascii.cons hc (by simp [Ascii])
  exact ((((((((((((four_ascii y).append (h1 45 (by decide))).append (two_ascii m)).append (h1 45 (by decide))).append (two_ascii d)).append (h1 sep hsep)).append
    (two_ascii h)).append (h1 58 (by decide))).append (two_ascii mi)).append (h1 58 (by decide))).append (two_ascii s)).append (h1 90 (by decide)))

theorem isoDateText_ascii (y m d : Nat) : Ascii (Props.isoDateText y m d) := by
  unfold Props.isoDateText
  exact ((((four_ascii y).append (by simp [Ascii])).append (two_ascii m)).append (by simp [Ascii])).append (two_ascii d)

/-- Leaves. -/
theorem prim_utf8 (env : Env) (hclk : 0 < env.clk) (k : Prim) (p : PVal) (j : Json) (h : serPrim env k p = .ok j)
    (hv : ∀ x, Contributes env (.prim p) (.prim k) x → Utf8 x) : ∀ x ∈ strings j, Utf8 x := by
  cases k with
  | null => cases p <;> cases h; simp [strings]
  | bool => cases p <;> cases h; simp [strings]
  | int t => cases p <;> cases h; simp [strings]
  | enumInt t => cases p <;> cases h; simp [strings]
  | flt t =>
    cases p with
    | flt f =>
      rw [serPrim_flt] at h
      split at h
      · cases h
        simp [strings]
      · cases h
    | _ => cases h
  | str =>
    cases p with
    | str s =>
      cases h
      simpa [strings] using hv s (.str s)
    | _ => cases h
  | bytes =>
    cases p with
    | bytes s =>
      cases h
      rw [strings, Props.C02_base64_rfc4648]
      simpa using (base64_ascii s).utf8
    | _ => cases h
  | time =>
    cases p with
    | time t =>
      cases h
      by_cases ht : Props.minSecond ≤ DateTime.toTimeT env.clk t ∧ DateTime.toTimeT env.clk t < Props.endSecond
      · rw [strings, Props.format_eq env.junk env.clk t ht]
        simpa using (isoText_ascii 84 (by decide) _ _ _ _ _ _).utf8
      · simpa [strings] using hv _ (.time t ht)
    | _ => cases h
  | date =>
    cases p with
    | date y m d =>
      rw [serPrim_date] at h
      split at h
      · rename_i s hs
        cases h
        by_cases hy : (0 ≤ y ∧ y < 10000) ∧ DateTime.ValidDate y m d
        · obtain ⟨⟨h1, h2⟩, h3⟩ := hy
          obtain ⟨n, rfl⟩ := Int.eq_ofNat_of_zero_le h1
          have hrep : DateTime.InRep (DateTime.dayNumber n m d * 86400 * env.clk) := by
            unfold DateTime.formatDate DateTime.sysDays at hs
            split at hs
            · assumption
            · cases hs
          obtain ⟨text, h4, h5⟩ := Props.C11_date_roundtrip env.junk env.clk hclk n m d (by omega) h3 hrep
          rw [hs] at h4
          cases h4
          obtain ⟨y', m', d', -, -, h6⟩ := (Props.C11_date_accepts_exactly env.clk hclk s).1.1 (by rw [h5]; simp)
          rw [strings, h6]
          simpa using (isoDateText_ascii y' m' d').utf8
        · have : ¬ (0 ≤ y ∧ y < 10000) ∨ ¬ DateTime.ValidDate y m d := by
            by_cases h1 : 0 ≤ y ∧ y < 10000
            · exact .inr fun h2 => hy ⟨h1, h2⟩
            · exact .inl h1
          simpa [strings] using hv s (.date y m d s this hs)
      · cases h
    | _ => cases h
  | enumStr table =>
    cases p with
    | int v =>
      cases h
      rcases enumName_mem table v with h | h
      · rw [h]
        simpa [strings] using Utf8.nil
      · simpa [strings] using hv _ (.name v table _ h)
    | _ => cases h

/-- What a serializer of a value keeps. -/
def Keeps (env : Env) (v : Val) (t : Ty) : Prop :=
  (∀ x, Contributes env v t x → Utf8 x) → ∀ segs σ, SegsUtf8 segs → TabUtf8 σ → OutUtf8 strings (ser env v t segs σ)

theorem items_utf8 (env : Env) : ∀ (vs : List Val) (ts : List Ty) (k : Nat) (segs : List Seg) (σ : STab),
    (∀ (i : Nat) v t, vs[i]? = some v → ts[i]? = some t → Keeps env v t ∧ ∀ x, Contributes env v t x → Utf8 x) → SegsUtf8 segs → TabUtf8 σ →
    OutUtf8 stringsAll (serItems env vs ts k segs σ)
  | [], [], k, segs, σ, _, _, hσ => by
    rw [serItems]
    exact ⟨hσ, fun a ha => by cases ha; simp [stringsAll]⟩
  | [], t :: ts, _, _, _, _, _, _ => by simp [serItems, OutUtf8]
  | v :: vs, [], _, _, _, _, _, _ => by simp [serItems, OutUtf8]
  | v :: vs, t :: ts, k, segs, σ, h, hs, hσ => by
    rw [serItems]
    have h0 := h 0 v t rfl rfl
    have h1 := h0.1 h0.2 (.index k :: segs) σ (segs_cons_index hs k) hσ
    split
    · trivial
    · rename_i σ' he
      rw [he] at h1
      exact ⟨h1.1, fun a ha => by cases ha⟩
    · rename_i σ' j he
      rw [he] at h1
      refine (items_utf8 env vs ts (k + 1) segs σ' (fun i w u hw hu => h (i + 1) w u (by simpa using hw) (by simpa using hu)) hs h1.1).map ?_
      intro js hjs x hx
      rcases List.mem_append.1 hx with hx | hx
      · exact h1.2 j rfl x hx
      · exact hjs x hx

theorem set_utf8 (env : Env) : ∀ (vs : List Val) (t : Ty) (segs : List Seg) (σ : STab),
    (∀ v ∈ vs, Keeps env v t ∧ ∀ x, Contributes env v t x → Utf8 x) → SegsUtf8 segs → TabUtf8 σ → OutUtf8 stringsAll (serSet env vs t segs σ)
  | [], t, segs, σ, _, _, hσ => by
    rw [serSet]
    exact ⟨hσ, fun a ha => by cases ha; simp [stringsAll]⟩
  | v :: vs, t, segs, σ, h, hs, hσ => by
    rw [serSet]
    have h0 := h v (by simp)
    have h1 := h0.1 h0.2 segs σ hs hσ
    split
    · trivial
    · rename_i σ' he
      rw [he] at h1
      exact ⟨h1.1, fun a ha => by cases ha⟩
    · rename_i σ' j he
      rw [he] at h1
      refine (set_utf8 env vs t segs σ' (fun w hw => h w (by simp [hw])) hs h1.1).map ?_
      intro js hjs x hx
      rcases List.mem_append.1 hx with hx | hx
      · exact h1.2 j rfl x hx
      · exact hjs x hx

theorem entries_utf8 : ∀ (fs : List (Str × SerFn)) (segs : List Seg) (σ : STab),
    (∀ p ∈ fs, Utf8 p.1 ∧ ∀ segs σ, SegsUtf8 segs → TabUtf8 σ → OutUtf8 strings (p.2 segs σ)) → SegsUtf8 segs → TabUtf8 σ →
    OutUtf8 stringsFields (serEntries fs segs σ)
  | [], segs, σ, _, _, hσ => by
    rw [serEntries]
    exact ⟨hσ, fun a ha => by cases ha; simp [stringsFields]⟩
  | (k, f) :: fs, segs, σ, h, hs, hσ => by
    rw [serEntries]
    have h0 := h (k, f) (by simp)
    have h1 := h0.2 (Seg.name k :: segs) σ (segs_cons_name hs h0.1) hσ
    simp only at h1
    split
    · trivial
    · rename_i σ' he
      rw [he] at h1
      exact ⟨h1.1, fun a ha => by cases ha⟩
    · rename_i σ' j he
      rw [he] at h1
      refine (entries_utf8 fs segs σ' (fun w hw => h w (by simp [hw])) hs h1.1).map ?_
      intro js hjs x hx
      rw [stringsFields] at hx
      rcases List.mem_cons.1 hx with rfl | hx
      · exact h0.1
      rcases List.mem_append.1 hx with hx | hx
      · exact h1.2 j rfl x hx
      · exact hjs x hx

theorem serVals_mem (env : Env) (kvs : List (Str × Val)) (t : Ty) (p : Str × SerFn) (h : p ∈ serVals env kvs t) :
    ∃ v, (p.1, v) ∈ kvs ∧ p.2 = ser env v t := by
  induction kvs with
  | nil => simp [serVals] at h
  | cons q kvs ih =>
    obtain ⟨k, v⟩ := q
    rw [serVals] at h
    rcases List.mem_cons.1 h with rfl | h
    · exact ⟨v, by simp, rfl⟩
    · obtain ⟨w, h1, h2⟩ := ih h
      exact ⟨w, by simp [h1], h2⟩

theorem lookup_mem {κ α : Type} [BEq κ] [LawfulBEq κ] {k : κ} {a : α} {l : List (κ × α)} (h : l.lookup k = some a) : (k, a) ∈ l := by
  induction l with
  | nil => cases h
  | cons p l ih =>
    obtain ⟨k', a'⟩ := p
    rw [List.lookup_cons] at h
    split at h
    · rename_i hk
      cases h
      rw [beq_iff_eq.1 hk]
      simp
    · exact List.mem_cons_of_mem _ (ih h)

theorem iterate_mem {α : Type} (env : Env) (o : Bool) (segs : List Seg) (kvs : List (Str × α)) (p : Str × α) (h : p ∈ iterate env o segs kvs) : p ∈ kvs := by
  unfold iterate at h
  split at h
  · exact h
  · unfold inOrder at h
    obtain ⟨k, -, hk⟩ := List.mem_filterMap.1 h
    obtain ⟨a, ha, rfl⟩ := Option.map_eq_some_iff.1 hk
    exact lookup_mem ha

theorem members_utf8 (env : Env) : ∀ (vs : List Val) (ms : List Member) (segs : List Seg) (σ : STab),
    (∀ m ∈ ms, Utf8 m.name) →
    (∀ (i : Nat) (v : Val) (m : Member), vs[i]? = some v ∨ vs[i]? = some (.present v) → ms[i]? = some m → Keeps env v m.ty ∧ ∀ x, Contributes env v m.ty x → Utf8 x) →
    SegsUtf8 segs → TabUtf8 σ → OutUtf8 stringsFields (serMembers env vs ms segs σ)
  | [], [], segs, σ, _, _, _, hσ => by
    rw [serMembers]
    exact ⟨hσ, fun a ha => by cases ha; simp [stringsFields]⟩
  | [], m :: ms, _, _, _, _, _, _ => by simp [serMembers, OutUtf8]
  | v :: vs, [], _, _, _, _, _, _ => by simp [serMembers, OutUtf8]
  | v :: vs, m :: ms, segs, σ, hn, h, hs, hσ => by
    have hrest : ∀ σ', TabUtf8 σ' → OutUtf8 stringsFields (serMembers env vs ms segs σ') := fun σ' hσ' =>
      members_utf8 env vs ms segs σ' (fun m hm => hn m (by simp [hm])) (fun i w u hw hu => h (i + 1) w u (by simpa using hw) (by simpa using hu)) hs hσ'
    have key : ∀ w, (Keeps env w m.ty ∧ ∀ x, Contributes env w m.ty x → Utf8 x) →
        OutUtf8 stringsFields (match ser env w m.ty (Seg.name m.name :: segs) σ with
          | .ub => .ub
          | .done σ' none => serMembers env vs ms segs σ'
          | .done σ' (some j) => (serMembers env vs ms segs σ').map ((m.name, j) :: ·)) := by
      intro w h0
      have h1 := h0.1 h0.2 (Seg.name m.name :: segs) σ (segs_cons_name hs (hn m (by simp))) hσ
      split
      · trivial
      · rename_i σ' he
        rw [he] at h1
        exact hrest σ' h1.1
      · rename_i σ' j he
        rw [he] at h1
        refine (hrest σ' h1.1).map ?_
        intro js hjs x hx
        rw [stringsFields] at hx
        rcases List.mem_cons.1 hx with rfl | hx
        · exact hn m (by simp)
        rcases List.mem_append.1 hx with hx | hx
        · exact h1.2 j rfl x hx
        · exact hjs x hx
    rw [serMembers.eq_def]
    simp only
    split
    · exact hrest σ hσ
    · rename_i w _
      exact key w (h 0 w m (.inr rfl) rfl)
    · trivial
    · exact key _ (h 0 _ m (.inl rfl) rfl)

theorem ser_utf8 (env : Env) (hclk : 0 < env.clk) : ∀ v t, Keeps env v t := by
  intro v
  induction v using Val.strong with
  | h v ih =>
    intro t hv segs σ hs hσ
    cases v with
    | prim p =>
      cases t with
      | prim k =>
        rw [ser]
        cases h : serPrim env k p with
        | ub => trivial
        | fail => exact ⟨hσ, fun a ha => by cases ha⟩
        | ok j =>
          refine ⟨hσ, fun a ha => ?_⟩
          cases ha
          exact prim_utf8 env hclk k p j h hv
      | _ => simp [ser, OutUtf8]
    | seq vs =>
      cases t with
      | vec t =>
        rw [ser]
        refine (items_utf8 env vs _ 0 segs σ ?_ hs hσ).map fun a ha => by rw [strings]; exact ha
        intro i v u hi hu
        have hm := List.mem_of_getElem? hi
        rw [List.eq_of_mem_replicate (List.mem_of_getElem? hu)]
        exact ⟨ih v (by have := mem_size hm; simp; omega) t, fun x hx => hv x (.vec vs t v x hm hx)⟩
      | _ => simp [ser, OutUtf8]
    | tup vs =>
      cases t with
      | arr n t =>
        rw [ser]
        split
        · refine (items_utf8 env vs _ 0 segs σ ?_ hs hσ).map fun a ha => by rw [strings]; exact ha
          intro i v u hi hu
          have hm := List.mem_of_getElem? hi
          rw [List.eq_of_mem_replicate (List.mem_of_getElem? hu)]
          exact ⟨ih v (by have := mem_size hm; simp; omega) t, fun x hx => hv x (.arr vs n t v x hm hx)⟩
        · trivial
      | tuple ts =>
        rw [ser]
        refine (items_utf8 env vs _ 0 segs σ ?_ hs hσ).map fun a ha => by rw [strings]; exact ha
        intro i v u hi hu
        have hm := List.mem_of_getElem? hi
        exact ⟨ih v (by have := mem_size hm; simp; omega) u, fun x hx => hv x (.tuple vs ts i v u x hi hu hx)⟩
      | _ => simp [ser, OutUtf8]
    | set vs =>
      cases t with
      | set t =>
        rw [ser]
        refine (set_utf8 env vs t segs σ ?_ hs hσ).map fun a ha => by rw [strings]; exact ha
        intro v hm
        exact ⟨ih v (by have := mem_size hm; simp; omega) t, fun x hx => hv x (.set vs t v x hm hx)⟩
      | _ => simp [ser, OutUtf8]
    | map kvs =>
      cases t with
      | map o t =>
        rw [ser]
        refine (entries_utf8 _ segs σ ?_ hs hσ).map fun a ha => by rw [strings]; exact ha
        intro p hp
        obtain ⟨w, h1, h2⟩ := serVals_mem env kvs t p (iterate_mem env o segs _ p hp)
        rw [h2]
        exact ⟨hv _ (.mapKey kvs o t p.1 w h1), ih w (by have := mem_size_kv h1; simp at this ⊢; omega) t fun x hx => hv x (.map kvs o t p.1 w x h1 hx)⟩
      | _ => simp [ser, OutUtf8]
    | dict kvs =>
      cases t with
      | dict t =>
        rw [ser]
        refine (entries_utf8 _ segs σ ?_ hs hσ).map fun a ha => by rw [strings]; exact ha
        intro p hp
        obtain ⟨w, h1, h2⟩ := serVals_mem env kvs t p hp
        rw [h2]
        exact ⟨hv _ (.dictKey kvs t p.1 w h1), ih w (by have := mem_size_kv h1; simp at this ⊢; omega) t fun x hx => hv x (.dict kvs t p.1 w x h1 hx)⟩
      | _ => simp [ser, OutUtf8]
    | alt i v =>
      cases t with
      | variant ts =>
        rw [ser]
        split
        · rename_i t ht
          exact ih v (by simp; omega) t (fun x hx => hv x (.alt i v ts t x ht hx)) segs σ hs hσ
        · trivial
      | _ => simp [ser, OutUtf8]
    | obj vs =>
      cases t with
      | cls c =>
        rw [ser]
        refine (members_utf8 env vs _ segs σ (fun m hm => hv _ (.memberName vs c m hm)) ?_ hs hσ).map fun a ha => by rw [strings]; exact ha
        intro i v m hi hm
        refine ⟨ih v ?_ m.ty, fun x hx => hv x (.member vs c i m v x hm hi hx)⟩
        rcases hi with hi | hi
        · have := mem_size (List.mem_of_getElem? hi); simp; omega
        · have := mem_size (List.mem_of_getElem? hi); simp at this ⊢; omega
      | _ => simp [ser, OutUtf8]
    | absent => cases t <;> simp [ser, OutUtf8]
    | present v => cases t <;> simp [ser, OutUtf8]
    | nullptr => cases t <;> simp [ser, OutUtf8]
    | uptr v =>
      cases t with
      | uptr t =>
        rw [ser]
        exact ih v (by simp) t (fun x hx => hv x (.uptr v t x hx)) segs σ hs hσ
      | _ => simp [ser, OutUtf8]
    | sptr a v =>
      cases t with
      | sptr t =>
        rw [ser]
        split
        · rename_i s hget
          refine ⟨hσ, fun j hj => ?_⟩
          cases hj
          have := pathStr_utf8 (hσ (a, s) (lookup_mem hget))
          simp only [strings, stringsFields, List.mem_cons, List.mem_append, List.not_mem_nil, or_false, forall_eq_or_imp, forall_eq]
          exact ⟨Ascii.utf8 (by simp [Ascii, lit]), this⟩
        · have h1 := ih v (by simp; omega) t (fun x hx => hv x (.sptr a v t x hx)) segs σ hs hσ
          split
          · trivial
          · rename_i σ' he
            rw [he] at h1
            exact ⟨h1.1, fun a ha => by cases ha⟩
          · rename_i σ' j he
            rw [he] at h1
            exact ⟨tab_put h1.1 a hs, h1.2⟩
      | _ => simp [ser, OutUtf8]

end Verif.Text
