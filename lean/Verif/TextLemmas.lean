import Verif.Text
import Verif.ParseSpec

/-!
# The text of a document

What a `Writer` writes for the events of a document, and that the reader sees the document in it.
-/

namespace Verif.Text
open Verif.Core Verif.Numeric

/-! ## The characters of a JSON text -/

theorem hexValue_ne {c : UInt8} {n : Nat} (h : hexValue c = some n) : c ≠ 0 := by
  rintro rfl
  simp [hexValue, isDigit] at h

theorem hex4_ne {a b c d : UInt8} {n : Nat} (h : hex4 a b c d = some n) : a ≠ 0 ∧ b ≠ 0 ∧ c ≠ 0 ∧ d ≠ 0 := by
  unfold hex4 at h
  split at h
  · rename_i h1 h2 h3 h4
    exact ⟨hexValue_ne h1, hexValue_ne h2, hexValue_ne h3, hexValue_ne h4⟩
  · cases h

theorem Chars.noNul {d t : Str} (h : Chars d t) : ∀ c ∈ t, c ≠ 0 := by
  induction h with
  | nil => simp
  | plain c h1 h2 h3 _ ih =>
    intro a ha
    rcases List.mem_cons.1 ha with rfl | ha
    · rintro rfl; simp at h1
    · exact ih a ha
  | esc c e h1 _ ih =>
    intro a ha
    simp only [List.mem_cons] at ha
    rcases ha with rfl | rfl | ha
    · decide
    · rintro rfl; simp [escaped] at h1
    · exact ih a ha
  | unicode h1 h2 h3 h4 n hn hs _ ih =>
    intro a ha
    have := hex4_ne hn
    simp only [List.mem_cons] at ha
    rcases ha with rfl | rfl | rfl | rfl | rfl | rfl | ha
    · decide
    · decide
    · exact this.1
    · exact this.2.1
    · exact this.2.2.1
    · exact this.2.2.2
    · exact ih a ha
  | surrogates h1 h2 h3 h4 l1 l2 l3 l4 n m hn hm hr hrm _ ih =>
    intro a ha
    have := hex4_ne hn
    have h' := hex4_ne hm
    simp only [List.mem_cons] at ha
    rcases ha with rfl | rfl | rfl | rfl | rfl | rfl | rfl | rfl | rfl | rfl | rfl | rfl | ha
    · decide
    · decide
    · exact this.1
    · exact this.2.1
    · exact this.2.2.1
    · exact this.2.2.2
    · decide
    · decide
    · exact h'.1
    · exact h'.2.1
    · exact h'.2.2.1
    · exact h'.2.2.2
    · exact ih a ha

theorem Ws.noNul {w : Str} (h : Ws w) : ∀ c ∈ w, c ≠ 0 := by
  intro c hc
  rintro rfl
  have := h 0 hc
  simp [isWs] at this

theorem NumText.noNul {C : NumConv} {n : JsonNum} {s : Str} (h : NumText C n s) : ∀ c ∈ s, c ≠ 0 := by
  intro c hc
  rintro rfl
  have := h.chars 0 hc
  simp [numChar, isDigit] at this

theorem Den.noNul {C : NumConv} {j : Json} {s : Str} (h : Den C j s) : ∀ c ∈ s, c ≠ 0 := by
  have cons : ∀ {a : UInt8} {x : Str}, a ≠ 0 → (∀ c ∈ x, c ≠ 0) → ∀ c ∈ a :: x, c ≠ 0 := by
    intro a x h1 h2 c hc
    rcases List.mem_cons.1 hc with rfl | hc
    · exact h1
    · exact h2 c hc
  have app : ∀ {x y : Str}, (∀ c ∈ x, c ≠ 0) → (∀ c ∈ y, c ≠ 0) → ∀ c ∈ x ++ y, c ≠ 0 := by
    intro x y h1 h2 c hc
    exact (List.mem_append.1 hc).elim (h1 c) (h2 c)
  refine Den.rec (C := C) (motive_1 := fun _ s _ => ∀ c ∈ s, c ≠ 0) (motive_2 := fun _ s _ => ∀ c ∈ s, c ≠ 0) (motive_3 := fun _ s _ => ∀ c ∈ s, c ≠ 0)
    ?_ ?_ ?_ ?_ ?_ ?_ ?_ ?_ ?_ ?_ ?_ ?_ ?_ h
  · decide
  · decide
  · decide
  · intro n s h; exact h.noNul
  · intro d t h; exact cons (by decide) (app h.noNul (by decide))
  · intro w h; exact cons (by decide) (app h.noNul (by decide))
  · intro js s _ ih; exact cons (by decide) (app ih (by decide))
  · intro w h; exact cons (by decide) (app h.noNul (by decide))
  · intro ms s _ ih; exact cons (by decide) (app ih (by decide))
  · intro w1 w2 s j h1 _ h2 ih; exact app h1.noNul (app ih h2.noNul)
  · intro w1 w2 s t j js h1 _ h2 _ ih ih'; exact app h1.noNul (app ih (app h2.noNul (cons (by decide) ih')))
  · intro w1 w2 w3 w4 k kt s j h1 hk h2 h3 _ h4 ih
    exact app h1.noNul (cons (by decide) (app hk.noNul (cons (by decide) (app h2.noNul (cons (by decide) (app h3.noNul (app ih h4.noNul)))))))
  · intro w1 w2 w3 w4 k kt s t j ms h1 hk h2 h3 _ h4 _ ih ih'
    exact app h1.noNul (cons (by decide) (app hk.noNul (cons (by decide) (app h2.noNul (cons (by decide) (app h3.noNul (app ih (app h4.noNul (cons (by decide) ih')))))))))

/-- A JSON text contains no NUL character. -/
theorem Denotes.noNul {C : NumConv} {j : Json} {s : Str} (h : Denotes C j s) : ∀ c ∈ s, c ≠ 0 := by
  obtain ⟨w1, t, w2, h1, h2, h3, rfl⟩ := h
  intro c hc
  simp only [List.mem_append] at hc
  rcases hc with hc | hc | hc
  · exact h1.noNul c hc
  · exact h2.noNul c hc
  · exact h3.noNul c hc

theorem cstr_noNul {s : Str} (h : ∀ c ∈ s, c ≠ 0) : cstr s = s := by
  unfold cstr
  induction s with
  | nil => rfl
  | cons c s ih =>
    rw [List.takeWhile_cons, if_pos (by simpa using h c (by simp)), ih fun a ha => h a (by simp [ha])]

theorem cstr_append (s rest : Str) : cstr (s ++ 0 :: rest) = cstr s := by
  unfold cstr
  induction s with
  | nil => simp
  | cons c s ih =>
    simp only [List.cons_append, List.takeWhile_cons]
    split
    · rw [ih]
    · rfl

/-! ## The text of a document -/

mutual
/-- The text of a document, without blanks. -/
def render (C : NumConv) : Json → Str
  | .null => lit "null"
  | .bool b => if b then lit "true" else lit "false"
  | .num n => numText C n
  | .str s => quote s
  | .arr js => 91 :: (renderItems C false js ++ [93])
  | .obj ms => 123 :: (renderFields C false ms ++ [125])

/-- Elements, with a comma before the first one if it follows another one. -/
def renderItems (C : NumConv) : Bool → List Json → Str
  | _, [] => []
  | sep, j :: js => (if sep then [44] else []) ++ (render C j ++ renderItems C true js)

/-- Members, with a comma before the first one if it follows another one. -/
def renderFields (C : NumConv) : Bool → List (Str × Json) → Str
  | _, [] => []
  | sep, (k, j) :: ms => (if sep then [44] else []) ++ (quote k ++ 58 :: (render C j ++ renderFields C true ms))
end

mutual
/-- A `Writer` that is given the events of a document writes its text. -/
theorem writer_render (C : NumConv) : ∀ (j : Json) (es : List Event) (ls : Levels),
    writerText C (events j ++ es) ls = (putPrefix ls).1 ++ (render C j ++ writerText C es (putPrefix ls).2)
  | .null, es, ls => by simp [events, writerText, writeCall, render]
  | .bool b, es, ls => by simp [events, writerText, writeCall, render]
  | .num n, es, ls => by simp [events, writerText, writeCall, render]
  | .str s, es, ls => by simp [events, writerText, writeCall, render]
  | .arr js, es, ls => by
    have h := writer_items C js 0 (.endArr :: es) (putPrefix ls).2
    simp only [events, List.cons_append, List.append_assoc, List.nil_append, writerText, writeCall, render, h]
    simp
  | .obj ms, es, ls => by
    have h := writer_fields C ms 0 (.endObj :: es) (putPrefix ls).2
    simp only [events, List.cons_append, List.append_assoc, List.nil_append, writerText, writeCall, render, h]
    simp

theorem writer_items (C : NumConv) : ∀ (js : List Json) (n : Nat) (es : List Event) (ls : Levels),
    writerText C (eventsItems js ++ es) ((true, n) :: ls) = renderItems C (n != 0) js ++ writerText C es ((true, n + js.length) :: ls)
  | [], n, es, ls => by simp [eventsItems, renderItems]
  | j :: js, n, es, ls => by
    have h1 := writer_render C j (eventsItems js ++ es) ((true, n) :: ls)
    have h2 := writer_items C js (n + 1) es ls
    simp only [eventsItems, List.append_assoc, h1, putPrefix, h2, renderItems, if_true]
    rw [show n + 1 + js.length = n + (j :: js).length by simp; omega, show (n + 1 != 0) = true by simp]
    by_cases hn : n = 0 <;> simp [hn]

theorem writer_fields (C : NumConv) : ∀ (ms : List (Str × Json)) (n : Nat) (es : List Event) (ls : Levels),
    writerText C (eventsMembers ms ++ es) ((false, 2 * n) :: ls) =
      renderFields C (n != 0) ms ++ writerText C es ((false, 2 * n + 2 * ms.length) :: ls)
  | [], n, es, ls => by simp [eventsMembers, renderFields]
  | (k, j) :: ms, n, es, ls => by
    have h1 := writer_render C j (eventsMembers ms ++ es) ((false, 2 * n + 1) :: ls)
    have h2 := writer_fields C ms (n + 1) es ls
    have e1 : 2 * n + 1 + 1 = 2 * (n + 1) := by omega
    have e2 : (2 * n + 1) % 2 = 1 := by omega
    simp only [eventsMembers, List.cons_append, List.append_assoc, writerText, writeCall, putPrefix, h1, e1, h2, renderFields, e2]
    rw [show 2 * (n + 1) + 2 * ms.length = 2 * n + 2 * ((k, j) :: ms).length by simp; omega, show (n + 1 != 0) = true by simp]
    by_cases hn : n = 0
    · simp [hn]
    · simp [hn, show 2 * n ≠ 0 by omega]
end

/-- `document_to_string` (utility.hpp:14-20): `Accept` reports the document to a `Writer`. -/
def documentToString (C : NumConv) (j : Json) : Str := writerText C (events j) []

theorem documentToString_eq (C : NumConv) (j : Json) : documentToString C j = render C j := by
  have := writer_render C j [] []
  simpa [documentToString, writerText, putPrefix] using this

/-! ## The reader sees the document -/

theorem hex4_control (c : UInt8) (h : c.toNat < 32) : hex4 48 48 (hexChar (c.toNat / 16)) (hexChar (c.toNat % 16)) = some c.toNat := by
  have key : ∀ n : Nat, n < 32 → hex4 48 48 (hexChar (n / 16)) (hexChar (n % 16)) = some n := by decide
  exact key _ h

theorem utf8_small (c : UInt8) (h : c.toNat < 32) : utf8 c.toNat = [c] := by
  simp [utf8, show c.toNat < 128 by omega]

theorem chars_escape (s : Str) : Chars s (s.flatMap escape) := by
  induction s with
  | nil => exact .nil
  | cons c s ih =>
    rw [List.flatMap_cons]
    unfold escape
    split
    · rename_i h; subst h; exact .esc 34 34 (by decide) ih
    split
    · rename_i h; subst h; exact .esc 92 92 (by decide) ih
    split
    · rename_i h; subst h; exact .esc 8 98 (by decide) ih
    split
    · rename_i h; subst h; exact .esc 9 116 (by decide) ih
    split
    · rename_i h; subst h; exact .esc 10 110 (by decide) ih
    split
    · rename_i h; subst h; exact .esc 12 102 (by decide) ih
    split
    · rename_i h; subst h; exact .esc 13 114 (by decide) ih
    split
    · rename_i h
      have := Chars.unicode 48 48 _ _ c.toNat (hex4_control c h) (by omega) ih
      rw [utf8_small c h] at this
      exact this
    · rename_i h1 h2 _ _ _ _ _ h
      exact .plain c (by omega) h1 h2 ih

theorem intPart_decimal (n : Nat) : IntPart (decimal n) := by
  by_cases h : n < 10
  · rw [decimal_lt n h]
    by_cases h0 : n = 0
    · subst h0; exact .inl rfl
    · refine .inr ⟨digitChar n, [], rfl, isDigit_digitChar n, ?_, rfl⟩
      intro hc
      have := digitChar_toNat n h
      rw [hc] at this
      simp at this
      omega
  · have hh := decimal_head n (by omega)
    have hd := decimal_digits n
    cases hs : decimal n with
    | nil => exact (decimal_ne_nil n hs).elim
    | cons c r =>
      rw [hs] at hh hd
      simp only [List.all_cons, Bool.and_eq_true] at hd
      exact .inr ⟨c, r, rfl, hd.1, by simpa using hh, hd.2⟩

theorem numText_int (C : NumConv) (v : Int) (h : (JsonNum.int v).Valid) : NumText C (.int v) (decimalInt v) := by
  have key : ∀ neg, signed neg (decimal v.natAbs) = v → decimalInt v = minus neg ++ decimal v.natAbs → NumText C (.int v) (decimalInt v) := by
    intro neg h1 h2
    rw [h2]
    have := NumText.int (C := C) neg (decimal v.natAbs) (intPart_decimal _) (by rw [h1]; exact h)
    rw [h1] at this
    exact this
  by_cases hv : v < 0
  · exact key true (by simp only [signed, if_true, digitsValue_decimal]; omega) (by simp [decimalInt, hv, minus])
  · exact key false (by simp only [signed, digitsValue_decimal]; simp; omega) (by simp [decimalInt, hv, minus])

mutual
/-- The floating-point numbers in a document. -/
def doubles : Json → List Flt
  | .num (.dbl f) => [f]
  | .arr js => doublesAll js
  | .obj ms => doublesFields ms
  | _ => []

/-- `doubles` of a list. -/
def doublesAll : List Json → List Flt
  | [] => []
  | j :: js => doubles j ++ doublesAll js

/-- `doubles` of members. -/
def doublesFields : List (Str × Json) → List Flt
  | [] => []
  | (_, j) :: ms => doubles j ++ doublesFields ms
end

/-- What is written for `f` is the text of a number that is no integer and is read as `f`. -/
def NumConv.Faithful (C : NumConv) (f : Flt) : Prop := NumText C (.dbl f) (C.fmt f)

theorem den_str (C : NumConv) (s : Str) : Den C (.str s) (quote s) := .str (chars_escape s)

theorem ws_nil : Ws [] := by simp [Ws]

mutual
theorem den_render (C : NumConv) : ∀ j, j.proper = true → (∀ f ∈ doubles j, C.Faithful f) → Den C j (render C j)
  | .null, _, _ => .null
  | .bool true, _, _ => .tt
  | .bool false, _, _ => .ff
  | .num (.int v), h, _ => .num (numText_int C v (by simpa [Json.proper, JsonNum.Valid] using h))
  | .num (.dbl f), _, h => .num (h f (by simp [doubles]))
  | .str s, _, _ => den_str C s
  | .arr js, h, hf => by
    have := den_items C js
    cases js with
    | nil => exact .arrNil ws_nil
    | cons j js => exact .arr (this (by simp) h hf)
  | .obj ms, h, hf => by
    have := den_fields C ms
    cases ms with
    | nil => exact .objNil ws_nil
    | cons m ms => exact .obj (this (by simp) h hf)

theorem den_items (C : NumConv) : ∀ js, js ≠ [] → Json.properAll js = true → (∀ f ∈ doublesAll js, C.Faithful f) →
    Items C js (renderItems C false js)
  | [], h, _, _ => (h rfl).elim
  | j :: js, _, h, hf => by
    have hi := den_items C js
    simp only [Json.properAll, Bool.and_eq_true] at h
    have hj := den_render C j h.1 (fun f hm => hf f (by simp [doublesAll, hm]))
    cases js with
    | nil => simpa [renderItems] using Items.one ws_nil hj ws_nil
    | cons j' js =>
      have := Items.more ws_nil hj ws_nil (hi (by simp) h.2 (fun f hm => hf f (by rw [doublesAll]; simp [hm])))
      simpa [renderItems] using this

theorem den_fields (C : NumConv) : ∀ ms, ms ≠ [] → Json.properFields ms = true → (∀ f ∈ doublesFields ms, C.Faithful f) →
    Fields C ms (renderFields C false ms)
  | [], h, _, _ => (h rfl).elim
  | (k, j) :: ms, _, h, hf => by
    have hi := den_fields C ms
    simp only [Json.properFields, Bool.and_eq_true] at h
    have hj := den_render C j h.1 (fun f hm => hf f (by simp [doublesFields, hm]))
    cases ms with
    | nil => simpa [renderFields, quote] using Fields.one ws_nil (chars_escape k) ws_nil ws_nil hj ws_nil
    | cons m' ms =>
      have := Fields.more ws_nil (chars_escape k) ws_nil ws_nil hj ws_nil (hi (by simp) h.2 (fun f hm => hf f (by rw [doublesFields]; simp [hm])))
      cases m'
      simpa [renderFields, quote] using this
end

/-- The text of a document is read as the document. -/
theorem denotes_render (C : NumConv) (j : Json) (hp : j.proper = true) (hf : ∀ f ∈ doubles j, C.Faithful f) : Denotes C j (render C j) :=
  ⟨[], _, [], ws_nil, den_render C j hp hf, ws_nil, by simp⟩

/-! ## Events determine the document -/

mutual
theorem events_cancel : ∀ (j j' : Json) (r r' : List Event), events j ++ r = events j' ++ r' → j = j' ∧ r = r'
  | .null, j', r, r', h => by cases j' <;> simp_all [events]
  | .bool b, j', r, r', h => by cases j' <;> simp_all [events]
  | .num n, j', r, r', h => by cases j' <;> simp_all [events]
  | .str s, j', r, r', h => by cases j' <;> simp_all [events]
  | .arr js, j', r, r', h => by
    have ih := eventsItems_cancel js
    cases j' with
    | arr js' =>
      simp only [events, List.cons_append, List.append_assoc, List.cons.injEq, true_and, List.nil_append] at h
      obtain ⟨rfl, h'⟩ := ih js' r r' h
      exact ⟨rfl, h'⟩
    | null | bool | num | str | obj => simp [events] at h
  | .obj ms, j', r, r', h => by
    have ih := eventsMembers_cancel ms
    cases j' with
    | obj ms' =>
      simp only [events, List.cons_append, List.append_assoc, List.cons.injEq, true_and, List.nil_append] at h
      obtain ⟨rfl, h'⟩ := ih ms' r r' h
      exact ⟨rfl, h'⟩
    | null | bool | num | str | arr => simp [events] at h

theorem eventsItems_cancel : ∀ (js js' : List Json) (r r' : List Event), eventsItems js ++ Event.endArr :: r = eventsItems js' ++ Event.endArr :: r' →
    js = js' ∧ r = r'
  | [], js', r, r', h => by
    cases js' with
    | nil => simpa [eventsItems] using h
    | cons j' js' => cases j' <;> simp [eventsItems, events] at h
  | j :: js, js', r, r', h => by
    have ih1 := events_cancel j
    have ih2 := eventsItems_cancel js
    cases js' with
    | nil => cases j <;> simp [eventsItems, events] at h
    | cons j' js' =>
      simp only [eventsItems, List.append_assoc] at h
      obtain ⟨rfl, h'⟩ := ih1 j' _ _ h
      obtain ⟨rfl, h''⟩ := ih2 js' _ _ h'
      exact ⟨rfl, h''⟩

theorem eventsMembers_cancel : ∀ (ms ms' : List (Str × Json)) (r r' : List Event),
    eventsMembers ms ++ Event.endObj :: r = eventsMembers ms' ++ Event.endObj :: r' → ms = ms' ∧ r = r'
  | [], ms', r, r', h => by
    cases ms' with
    | nil => simpa [eventsMembers] using h
    | cons m' ms' => simp [eventsMembers] at h
  | (k, j) :: ms, ms', r, r', h => by
    have ih1 := events_cancel j
    have ih2 := eventsMembers_cancel ms
    cases ms' with
    | nil => simp [eventsMembers] at h
    | cons m' ms' =>
      obtain ⟨k', j'⟩ := m'
      simp only [eventsMembers, List.cons_append, List.append_assoc, List.cons.injEq, Event.key.injEq] at h
      obtain ⟨hk, h⟩ := h
      obtain ⟨rfl, h'⟩ := ih1 j' _ _ h
      obtain ⟨rfl, h''⟩ := ih2 ms' _ _ h'
      exact ⟨by rw [hk], h''⟩
end

theorem events_inj (j j' : Json) (h : events j = events j') : j = j' :=
  (events_cancel j j' [] [] (by rw [h])).1

end Verif.Text
