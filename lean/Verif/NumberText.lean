import Verif.Text
import Verif.TextIO

/-!
# Model of number.hpp: numbers as texts

`parse_number` (number.hpp:79-84) with the standard library contracts of `std::from_chars` for integers in base 10
(C++17 [charconv.from.chars]) and of `std::strtod` and its siblings in the "C" locale (C11 7.22.1.3). The conversion of
an accepted text to a floating-point number is a parameter.
-/

namespace Verif.Text
open Verif.Core Verif.Numeric

/-! ## Integers -/

/-- Outcome of `std::from_chars`: `errc::invalid_argument`, `errc::result_out_of_range`, or the value and the characters
from `ptr` on. -/
inductive FromChars
  | invalid
  | outOfRange
  | ok (v : Int) (rest : Str)
deriving DecidableEq, Repr

/-- `std::from_chars(first, last, value)` for an integer type: a minus sign only for signed types, then the longest
sequence of digits. -/
def fromChars (t : IntTy) (s : Str) : FromChars :=
  let neg := t.signed && s.head? == some 45
  let body := if neg then s.tail else s
  let ds := body.takeWhile isDigit
  if ds = [] then .invalid
  else if t.min ≤ signed neg ds ∧ signed neg ds ≤ t.max then .ok (signed neg ds) (body.dropWhile isDigit)
  else .outOfRange

/-- `detail::parse_from_chars` (number.hpp:11-17), `NumberParser<T>::parse` for integers (number.hpp:26-33). -/
def parseIntText (t : IntTy) (s : Str) : Option Int :=
  match fromChars t s with
  | .ok v [] => some v
  | _ => none

/-! ## Floating-point numbers -/

/-- `isspace` in the "C" locale. -/
def isSpace (c : UInt8) : Bool := c = 32 || (decide (9 ≤ c.toNat) && decide (c.toNat ≤ 13))

/-- Hexadecimal digits. -/
def isHexDigit (c : UInt8) : Bool :=
  isDigit c || (decide (65 ≤ c.toNat) && decide (c.toNat ≤ 70)) || (decide (97 ≤ c.toNat) && decide (c.toNat ≤ 102))

/-- Letters, in lower case. -/
def toLower (c : UInt8) : UInt8 := if 65 ≤ c.toNat ∧ c.toNat ≤ 90 then c + 32 else c

/-- Characters between the brackets of `nan(...)`. -/
def isNanChar (c : UInt8) : Bool :=
  isDigit c || c = 95 || (decide (65 ≤ c.toNat) && decide (c.toNat ≤ 90)) || (decide (97 ≤ c.toNat) && decide (c.toNat ≤ 122))

/-- Length of an exponent at the start: the letter, an optional sign, at least one digit; else 0. -/
def expLen (mark : UInt8) : Str → Nat
  | [] => 0
  | c :: r =>
      if toLower c = mark then
        let sg := if r.head? = some 43 ∨ r.head? = some 45 then 1 else 0
        let d := ((r.drop sg).takeWhile isDigit).length
        if d = 0 then 0 else 1 + sg + d
      else 0

/-- Length of the longest `digits [. digits]` with at least one digit at the start. -/
def mantLen (p : UInt8 → Bool) (s : Str) : Nat :=
  let i := (s.takeWhile p).length
  let r := s.dropWhile p
  if r.head? = some 46 then
    let d := (r.tail.takeWhile p).length
    if i + d = 0 then 0 else i + 1 + d
  else i

/-- The length of a number with the given digits and exponent mark. -/
def numLen (p : UInt8 → Bool) (mark : UInt8) (s : Str) : Nat :=
  let m := mantLen p s
  if m = 0 then 0 else m + expLen mark (s.drop m)

/-- The length of `inf`, `infinity`, `nan`, `nan(...)` in any case. -/
def wordLen (s : Str) : Nat :=
  if (s.take 8).map toLower = lit "infinity" then 8
  else if (s.take 3).map toLower = lit "inf" then 3
  else if (s.take 3).map toLower = lit "nan" then
    let r := s.drop 3
    if r.head? = some 40 ∧ (r.tail.dropWhile isNanChar).head? = some 41 then 3 + 2 + (r.tail.takeWhile isNanChar).length else 3
  else 0

/-- The length of the subject sequence without blanks and sign. -/
def subjectLen (s : Str) : Nat :=
  match s with
  | z :: x :: r =>
      if z = 48 ∧ toLower x = 120 ∧ numLen isHexDigit 112 r ≠ 0 then 2 + numLen isHexDigit 112 r
      else if numLen isDigit 101 s ≠ 0 then numLen isDigit 101 s
      else wordLen s
  | _ => numLen isDigit 101 s

/-- How many characters of a C string `strtod` reads; 0 when it makes no conversion. -/
def strtodLen (s : Str) : Nat :=
  let w := (s.takeWhile isSpace).length
  let r := s.drop w
  let sg := if r.head? = some 43 ∨ r.head? = some 45 then 1 else 0
  let b := subjectLen (r.drop sg)
  if b = 0 then 0 else w + sg + b

/-- `NumberParser<float>::parse` and its siblings (number.hpp:45-76): whether the view `s` is accepted, and the
value stored (in either case). `after` is the memory behind the view up to and including the next NUL; without a NUL
the behaviour is undefined. `conv` gives the number for a text that `strtod` reads. -/
def parseFloatText (conv : Str → Flt) (s after : Str) : Bool × Flt :=
  let text := cstr (s ++ after)
  let n := strtodLen text
  (n == s.length, if n = 0 then .zero false else conv (text.take n))

/-! ## Lemmas -/

theorem takeWhile_notHead {p : UInt8 → Bool} {x : Str} (h : NotHead p x) : x.takeWhile p = [] := by
  cases x with
  | nil => rfl
  | cons c r => simp [h c r rfl]

theorem dropWhile_notHead {p : UInt8 → Bool} {x : Str} (h : NotHead p x) : x.dropWhile p = x := by
  cases x with
  | nil => rfl
  | cons c r => simp [h c r rfl]

theorem span_append {p : UInt8 → Bool} {a x : Str} (ha : a.all p = true) (hx : NotHead p x) :
    (a ++ x).takeWhile p = a ∧ (a ++ x).dropWhile p = x := by
  have h := List.all_eq_true.mp ha
  rw [List.takeWhile_append_of_pos h, List.dropWhile_append_of_pos h, takeWhile_notHead hx, dropWhile_notHead hx]
  simp

theorem parseIntText_iff (t : IntTy) (s : Str) (v : Int) :
    parseIntText t s = some v ↔ ∃ neg ds, s = minus neg ++ ds ∧ Digits ds ∧ (neg = true → t.signed = true) ∧ v = signed neg ds ∧ t.InRange v := by
  constructor
  · intro h
    unfold parseIntText at h
    split at h
    · rename_i w hc
      injection h with h
      subst h
      unfold fromChars at hc
      simp only at hc
      generalize hneg : (t.signed && s.head? == some 45) = neg at hc
      generalize hbody : (if neg = true then s.tail else s) = body at hc
      split at hc
      · cases hc
      · rename_i hds
        split at hc
        · rename_i hr
          injection hc with hv hrest
          refine ⟨neg, body.takeWhile isDigit, ?_, ⟨hds, ?_⟩, ?_, hv.symm, ?_⟩
          · have hb := List.takeWhile_append_dropWhile (p := isDigit) (l := body)
            rw [hrest, List.append_nil] at hb
            rw [hb, ← hbody]
            cases neg with
            | false => simp [minus]
            | true =>
                simp only [Bool.and_eq_true, beq_iff_eq] at hneg
                cases s with
                | nil => simp at hneg
                | cons c r =>
                    simp only [List.head?_cons, Option.some.injEq] at hneg
                    simp [minus, hneg.2]
          · exact List.all_takeWhile
          · intro hn
            rw [hn] at hneg
            simp only [Bool.and_eq_true] at hneg
            exact hneg.1
          · rw [← hv]; exact hr
        · cases hc
    · cases h
  · rintro ⟨neg, ds, rfl, ⟨hne, hall⟩, hs, rfl, hr⟩
    have hneg : (t.signed && (minus neg ++ ds).head? == some 45) = neg := by
      cases neg with
      | true => simp [minus, hs rfl]
      | false =>
          cases ds with
          | nil => exact absurd rfl hne
          | cons c r =>
              have : c ≠ 45 := by
                have hc : isDigit c = true := by simpa using (List.all_eq_true.mp hall) c (by simp)
                exact isDigit_ne hc (by decide)
              simp [minus, this]
    have hbody : (if neg = true then (minus neg ++ ds).tail else minus neg ++ ds) = ds := by cases neg <;> simp [minus]
    have hsp := span_append (x := []) hall (by intro c r h; cases h)
    rw [List.append_nil] at hsp
    unfold parseIntText fromChars
    simp only [hneg, hbody, hsp.1, hsp.2, if_neg hne]
    have hr' : t.min ≤ signed neg ds ∧ signed neg ds ≤ t.max := hr
    rw [if_pos hr']

/-- Characters that may continue a number: letters, digits and the point. -/
def continues (c : UInt8) : Bool := isNanChar c || c = 46

theorem continues_false {c : UInt8} (h : continues c = false) : isDigit c = false ∧ c ≠ 46 ∧ toLower c ≠ 101 ∧ toLower c ≠ 120 := by
  have : ∀ c : UInt8, continues c = false → isDigit c = false ∧ c ≠ 46 ∧ toLower c ≠ 101 ∧ toLower c ≠ 120 := by
    intro c
    have : ∀ n : Fin 256, continues (UInt8.ofNat n) = false → isDigit (UInt8.ofNat n) = false ∧ UInt8.ofNat n ≠ 46 ∧
        toLower (UInt8.ofNat n) ≠ 101 ∧ toLower (UInt8.ofNat n) ≠ 120 := by decide +kernel
    have h := this ⟨c.toNat, c.toNat_lt⟩
    simpa using h
  exact this c h

theorem notHead_digit {x : Str} (h : NotHead continues x) : NotHead isDigit x := fun c r hx => (continues_false (h c r hx)).1

theorem expLen_full {ex x : Str} (h : ExpPart ex) (hx : NotHead continues x) : expLen 101 (ex ++ x) = ex.length := by
  rcases h with rfl | ⟨e, sg, d, rfl, he, hsg, hd⟩
  · cases x with
    | nil => rfl
    | cons c r => simp [expLen, (continues_false (hx c r rfl)).2.2.1]
  · have he' : toLower e = 101 := by rcases he with rfl | rfl <;> decide
    have hsp := span_append hd.2 (notHead_digit hx)
    obtain ⟨c, r, hcr⟩ := List.exists_cons_of_ne_nil hd.1
    have hc : isDigit c = true := by
      have := List.all_eq_true.mp hd.2 c (by rw [hcr]; simp)
      exact this
    have h43 : c ≠ 43 := isDigit_ne hc (by decide)
    have h45 : c ≠ 45 := isDigit_ne hc (by decide)
    have hlen : d.length ≠ 0 := by rw [hcr]; simp
    rcases hsg with rfl | rfl | rfl
    · have hh : ¬ ((d ++ x).head? = some 43 ∨ (d ++ x).head? = some 45) := by rw [hcr]; simp [h43, h45]
      simp only [List.nil_append, List.cons_append, expLen, he', if_true, if_neg hh, List.drop_zero, hsp.1, if_neg hlen, List.length_cons]
      omega
    · simp only [List.cons_append, List.nil_append, expLen, he', if_true, List.head?_cons, true_or, List.drop_succ_cons, List.drop_zero, hsp.1,
        if_neg hlen, List.length_cons]
      omega
    · simp only [List.cons_append, List.nil_append, expLen, he', if_true, List.head?_cons, or_true, List.drop_succ_cons, List.drop_zero, hsp.1,
        if_neg hlen, List.length_cons]
      omega

theorem mantLen_full {i fr y : Str} (hi : Digits i) (hf : FracPart fr) (hy : NotHead (fun c => isDigit c || c = 46) y) :
    mantLen isDigit (i ++ fr ++ y) = (i ++ fr).length := by
  have hy1 : NotHead isDigit y := fun c r h => by have := hy c r h; simp at this; exact this.1
  have hy2 : y.head? ≠ some 46 := by
    cases y with
    | nil => simp
    | cons c r => have := hy c r rfl; simp at this; simp [this.2]
  have hlen : i.length ≠ 0 := by cases i <;> simp at hi ⊢; exact absurd rfl hi.1
  rcases hf with rfl | ⟨d, rfl, hd⟩
  · have hsp := span_append hi.2 hy1
    simp only [List.append_nil, mantLen, hsp.1, hsp.2, if_neg hy2]
  · have hsp := span_append (x := (46 :: d) ++ y) hi.2 (by intro c r h; injection h with h _; rw [← h]; decide)
    have hsd := span_append hd.2 hy1
    simp only [List.append_assoc, mantLen, hsp.1, hsp.2]
    simp only [List.cons_append, List.head?_cons, if_true, List.tail_cons, hsd.1, List.length_append, List.length_cons]
    rw [if_neg (by omega)]
    omega

theorem IntPart.digits {i : Str} (h : IntPart i) : Digits i := by
  refine ⟨?_, h.all⟩
  obtain ⟨c, r, rfl, _⟩ := h.cons
  simp

theorem exp_notHead {ex x : Str} (h : ExpPart ex) (hx : NotHead continues x) : NotHead (fun c => isDigit c || c = 46) (ex ++ x) := by
  rcases h with rfl | ⟨e, sg, d, rfl, he, _, _⟩
  · intro c r hh
    have := continues_false (hx c r hh)
    simp [this.1, this.2.1]
  · intro c r hh
    injection hh with hh _
    rcases he with rfl | rfl <;> (rw [← hh]; decide)

theorem numLen_full {i fr ex x : Str} (hi : IntPart i) (hf : FracPart fr) (he : ExpPart ex) (hx : NotHead continues x) :
    numLen isDigit 101 (i ++ fr ++ ex ++ x) = (i ++ fr ++ ex).length := by
  have hm : mantLen isDigit (i ++ fr ++ ex ++ x) = (i ++ fr).length := by
    rw [List.append_assoc (i ++ fr)]
    exact mantLen_full hi.digits hf (exp_notHead he hx)
  have hne : (i ++ fr).length ≠ 0 := by
    obtain ⟨c, r, rfl, _⟩ := hi.cons
    simp
  simp only [numLen, hm, if_neg hne]
  rw [List.append_assoc (i ++ fr), List.drop_left, expLen_full he hx]
  simp [Nat.add_assoc]

theorem subjectLen_full {i fr ex x : Str} (hi : IntPart i) (hf : FracPart fr) (he : ExpPart ex) (hx : NotHead continues x) :
    subjectLen (i ++ fr ++ ex ++ x) = (i ++ fr ++ ex).length := by
  have hn := numLen_full hi hf he hx
  have hne : (i ++ fr ++ ex).length ≠ 0 := by
    obtain ⟨c, r, rfl, _⟩ := hi.cons
    simp
  have hhex : ∀ z y r, i ++ fr ++ ex ++ x = z :: y :: r → ¬ (z = 48 ∧ toLower y = 120 ∧ numLen isHexDigit 112 r ≠ 0) := by
    rintro z y r h ⟨hz, hyx, _⟩
    rcases hi with rfl | ⟨c, r', rfl, _, hc, _⟩
    · have h' : fr ++ (ex ++ x) = y :: r := by
        have := (List.cons.inj (show 48 :: (fr ++ (ex ++ x)) = z :: y :: r by simpa using h)).2
        exact this
      rcases hf with rfl | ⟨d, rfl, _⟩
      · rcases he with rfl | ⟨e, sg, d, rfl, he, _, _⟩
        · exact (continues_false (hx y r (by simpa using h'))).2.2.2 hyx
        · injection h' with h' _
          rw [← h'] at hyx
          rcases he with rfl | rfl <;> revert hyx <;> decide
      · injection h' with h' _
        rw [← h'] at hyx
        revert hyx; decide
    · injection h with h _
      exact hc (h.trans hz)
  unfold subjectLen
  split
  · rename_i z y r heq
    rw [if_neg (hhex z y r heq), hn, if_pos hne]
  · exact hn

theorem strtodLen_full (neg : Bool) {i fr ex x : Str} (hi : IntPart i) (hf : FracPart fr) (he : ExpPart ex) (hx : NotHead continues x) :
    strtodLen (minus neg ++ i ++ fr ++ ex ++ x) = (minus neg ++ i ++ fr ++ ex).length := by
  have hs := subjectLen_full hi hf he hx
  obtain ⟨c, r, hir, hc⟩ := hi.cons
  have hne : (i ++ fr ++ ex).length ≠ 0 := by rw [hir]; simp
  have h43 : c ≠ 43 := isDigit_ne hc (by decide)
  have h45 : c ≠ 45 := isDigit_ne hc (by decide)
  have hsp : isSpace c = false := by
    have h : 48 ≤ c.toNat ∧ c.toNat ≤ 57 := by simpa [isDigit] using hc
    have h32 : c ≠ 32 := isDigit_ne hc (by decide)
    simp [isSpace, h32]
    omega
  cases neg with
  | false =>
      have hw : (i ++ fr ++ ex ++ x).takeWhile isSpace = [] := takeWhile_notHead (by
        rw [hir]; intro d r h; injection h with h _; rw [← h]; exact hsp)
      have hh : ¬ ((i ++ fr ++ ex ++ x).head? = some 43 ∨ (i ++ fr ++ ex ++ x).head? = some 45) := by rw [hir]; simp [h43, h45]
      simp only [minus, Bool.false_eq_true, if_false, List.nil_append, strtodLen, hw, List.length_nil, List.drop_zero, if_neg hh, hs, if_neg hne]
      omega
  | true =>
      simp only [minus, if_true, List.cons_append, List.nil_append, strtodLen]
      have hw : (45 :: (i ++ fr ++ ex ++ x)).takeWhile isSpace = [] := takeWhile_notHead (notHead_cons (by decide) _)
      rw [hw]
      simp only [List.length_nil, List.drop_zero, List.head?_cons, or_true, if_true, List.drop_succ_cons, hs, if_neg hne, List.length_cons]
      omega

end Verif.Text
