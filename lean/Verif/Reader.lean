import Verif.TextIO

/-!
# A reader of texts

RapidJSON's reader enters the model only by its contract (`Reader` in `TextIO`): it accepts the JSON texts of RFC 8259.
Here is a program that meets the contract, so that the functions on strings can be evaluated on the texts in the
project's test suite (`Conformance`).
-/

namespace Verif.Text
open Verif.Core Verif.Numeric

/-! ## Numbers -/

/-- Decides `IntPart`. -/
def isIntPart (i : Str) : Bool := i = [48] || (i ≠ [] && i.head? ≠ some 48 && i.all isDigit)

/-- Splits off the fraction. -/
def takeFrac (s : Str) : Option (Str × Str) :=
  match s with
  | [] => some ([], [])
  | c :: r =>
      if c = 46 then (if r.takeWhile isDigit = [] then none else some (46 :: r.takeWhile isDigit, r.dropWhile isDigit))
      else some ([], c :: r)

/-- A sign at the start is dropped. -/
def dropSign (s : Str) : Str := match s with
  | [] => []
  | c :: r => if c = 43 ∨ c = 45 then r else c :: r

/-- Decides `ExpPart`. -/
def isExpPart (s : Str) : Bool :=
  match s with
  | [] => true
  | e :: r => (e = 101 || e = 69) && dropSign r ≠ [] && (dropSign r).all isDigit

/-- The number without its sign. -/
def numOfBody (C : NumConv) (neg : Bool) (b : Str) : Option JsonNum :=
  if isIntPart (b.takeWhile isDigit) then
    match takeFrac (b.dropWhile isDigit) with
    | none => none
    | some (fr, ex) =>
        if isExpPart ex then
          if fr ++ ex = [] ∧ (JsonNum.int (signed neg b)).Valid then some (.int (signed neg b))
          else (C.conv (minus neg ++ b)).map .dbl
        else none
  else none

/-- The number with the given text. -/
def numOf (C : NumConv) (s : Str) : Option JsonNum :=
  match s with
  | [] => none
  | c :: r => if c = 45 then numOfBody C true r else numOfBody C false (c :: r)

/-! ## Strings -/

/-- The characters up to the closing quotation mark, and the text behind it. -/
def readChars : Str → Option (Str × Str)
  | [] => none
  | c :: r =>
      if c = 34 then some ([], r)
      else if c = 92 then
        match r with
        | [] => none
        | e :: r' =>
            if e = 117 then
              match r' with
              | h1 :: h2 :: h3 :: h4 :: r2 =>
                  match hex4 h1 h2 h3 h4 with
                  | none => none
                  | some n =>
                      if 0xD800 ≤ n ∧ n ≤ 0xDFFF then
                        match r2 with
                        | b :: u :: l1 :: l2 :: l3 :: l4 :: r3 =>
                            match hex4 l1 l2 l3 l4 with
                            | none => none
                            | some m =>
                                if b = 92 ∧ u = 117 ∧ n ≤ 0xDBFF ∧ 0xDC00 ≤ m ∧ m ≤ 0xDFFF then
                                  (readChars r3).map fun x => (utf8 (0x10000 + (n - 0xD800) * 1024 + (m - 0xDC00)) ++ x.1, x.2)
                                else none
                        | _ => none
                      else (readChars r2).map fun x => (utf8 n ++ x.1, x.2)
              | _ => none
            else
              match escaped e with
              | none => none
              | some d => (readChars r').map fun x => (d :: x.1, x.2)
      else if c.toNat < 32 then none
      else (readChars r).map fun x => (c :: x.1, x.2)

/-! ## Values -/

/-- Blanks at the start are dropped. -/
def skipWs (s : Str) : Str := s.dropWhile isWs

/-- The text behind a given word at the start. -/
def skipWord : Str → Str → Option Str
  | [], s => some s
  | _ :: _, [] => none
  | c :: w, d :: s => if c = d then skipWord w s else none

mutual
/-- A value at the start of a text, and the text behind it. -/
def readVal (C : NumConv) : Nat → Str → Option (Json × Str)
  | 0, _ => none
  | _+1, [] => none
  | n+1, c :: r =>
      if c = 110 then (skipWord (lit "ull") r).map fun x => (.null, x)
      else if c = 116 then (skipWord (lit "rue") r).map fun x => (.bool true, x)
      else if c = 102 then (skipWord (lit "alse") r).map fun x => (.bool false, x)
      else if c = 34 then (readChars r).map fun x => (.str x.1, x.2)
      else if c = 91 then
        if (skipWs r).head? = some 93 then some (.arr [], (skipWs r).tail)
        else (readItems C n r).map fun x => (.arr x.1, x.2)
      else if c = 123 then
        if (skipWs r).head? = some 125 then some (.obj [], (skipWs r).tail)
        else (readFields C n r).map fun x => (.obj x.1, x.2)
      else (numOf C ((c :: r).takeWhile numChar)).map fun x => (.num x, (c :: r).dropWhile numChar)

/-- One or more values, and the text behind the closing bracket. -/
def readItems (C : NumConv) : Nat → Str → Option (List Json × Str)
  | 0, _ => none
  | n+1, s =>
      match readVal C n (skipWs s) with
      | none => none
      | some (j, r) =>
          match skipWs r with
          | [] => none
          | c :: r' =>
              if c = 93 then some ([j], r')
              else if c = 44 then (readItems C n r').map fun x => (j :: x.1, x.2)
              else none

/-- One or more members, and the text behind the closing brace. -/
def readFields (C : NumConv) : Nat → Str → Option (List (Str × Json) × Str)
  | 0, _ => none
  | n+1, s =>
      match skipWs s with
      | [] => none
      | q :: r =>
          if q = 34 then
            match readChars r with
            | none => none
            | some (k, r2) =>
                match skipWs r2 with
                | [] => none
                | d :: r3 =>
                    if d = 58 then
                      match readVal C n (skipWs r3) with
                      | none => none
                      | some (j, r4) =>
                          match skipWs r4 with
                          | [] => none
                          | c :: r5 =>
                              if c = 125 then some ([(k, j)], r5)
                              else if c = 44 then (readFields C n r5).map fun x => ((k, j) :: x.1, x.2)
                              else none
                    else none
          else none
end

/-- The document with the given text. -/
def readDoc (C : NumConv) (w : Str) : Option Json :=
  match readVal C (2 * w.length + 1) (skipWs w) with
  | none => none
  | some (j, r) => if skipWs r = [] then some j else none

/-! ## The reader accepts the JSON texts -/

theorem takeWhile_append_notHead {p : UInt8 → Bool} {d x : Str} (h : ∀ c ∈ d, p c = true) (hx : NotHead p x) :
    (d ++ x).takeWhile p = d ∧ (d ++ x).dropWhile p = x := by
  induction d with
  | nil =>
    cases x with
    | nil => simp
    | cons c r => have := hx c r rfl; simp [this]
  | cons c d ih =>
    have hc := h c (by simp)
    obtain ⟨h1, h2⟩ := ih fun a ha => h a (by simp [ha])
    simp [hc, h1, h2]

theorem notHead_dropWhile (p : UInt8 → Bool) (s : Str) : NotHead p (s.dropWhile p) := by
  intro c r h
  induction s with
  | nil => simp at h
  | cons d s ih =>
    rw [List.dropWhile_cons] at h
    split at h
    · exact ih h
    · rename_i hd
      simp only [List.cons.injEq] at h
      rw [← h.1]
      simpa using hd

theorem mem_takeWhile {p : UInt8 → Bool} {s : Str} : ∀ c ∈ s.takeWhile p, p c = true := by
  intro c h
  induction s with
  | nil => simp at h
  | cons d s ih =>
    rw [List.takeWhile_cons] at h
    split at h
    · rename_i hd
      rcases List.mem_cons.mp h with rfl | h
      · exact hd
      · exact ih h
    · simp at h

theorem isIntPart_iff (i : Str) : isIntPart i = true ↔ IntPart i := by
  unfold isIntPart IntPart
  cases i with
  | nil => simp
  | cons c r =>
    simp only [List.head?_cons, List.all_cons, Bool.or_eq_true, decide_eq_true_eq, Bool.and_eq_true, ne_eq, Option.some.injEq,
      List.cons.injEq, reduceCtorEq, not_false_eq_true, decide_true, true_and]
    constructor
    · rintro (h | ⟨h1, h2, h3⟩)
      · exact .inl h
      · exact .inr ⟨c, r, ⟨rfl, rfl⟩, h2, by simpa using h1, h3⟩
    · rintro (h | ⟨c', r', ⟨rfl, rfl⟩, h2, h1, h3⟩)
      · exact .inl h
      · exact .inr ⟨by simpa using h1, h2, h3⟩

theorem isExpPart_iff (s : Str) : isExpPart s = true ↔ ExpPart s := by
  unfold isExpPart ExpPart
  cases s with
  | nil => simp
  | cons e r =>
    simp only [Bool.and_eq_true, Bool.or_eq_true, decide_eq_true_eq, ne_eq, reduceCtorEq, false_or, List.cons.injEq]
    constructor
    · rintro ⟨⟨he, h1⟩, h2⟩
      cases r with
      | nil => simp [dropSign] at h1
      | cons c r =>
        unfold dropSign at h1 h2
        by_cases hc : c = 43 ∨ c = 45
        · simp only [hc, if_true] at h1 h2
          refine ⟨e, [c], r, ⟨rfl, rfl⟩, he, ?_, by simpa using h1, h2⟩
          rcases hc with rfl | rfl <;> simp
        · simp only [hc, if_false] at h1 h2
          exact ⟨e, [], c :: r, ⟨rfl, rfl⟩, he, .inl rfl, by simp, h2⟩
    · rintro ⟨e', sg, d, ⟨rfl, rfl⟩, he, hs, h1, h2⟩
      have hd : dropSign (sg ++ d) = d := by
        rcases hs with rfl | rfl | rfl
        · cases d with
          | nil => exact absurd rfl h1
          | cons c d =>
            have hc : isDigit c = true := by simp at h2; exact h2.1
            have : ¬ (c = 43 ∨ c = 45) := by
              rintro (rfl | rfl) <;> revert hc <;> decide
            simp [dropSign, this]
        · simp [dropSign]
        · simp [dropSign]
      rw [hd]
      exact ⟨⟨he, by simpa using h1⟩, h2⟩

theorem takeFrac_some {s fr ex : Str} (h : takeFrac s = some (fr, ex)) : s = fr ++ ex ∧ FracPart fr := by
  unfold takeFrac at h
  cases s with
  | nil => simp at h; obtain ⟨rfl, rfl⟩ := h; exact ⟨rfl, .inl rfl⟩
  | cons c r =>
    simp only at h
    split at h
    · rename_i hc
      split at h
      · cases h
      · rename_i hn
        simp only [Option.some.injEq, Prod.mk.injEq] at h
        obtain ⟨rfl, rfl⟩ := h
        refine ⟨by rw [hc, List.cons_append, List.takeWhile_append_dropWhile], .inr ⟨_, rfl, hn, ?_⟩⟩
        simp only [List.all_eq_true]
        exact mem_takeWhile
    · simp only [Option.some.injEq, Prod.mk.injEq] at h
      obtain ⟨rfl, rfl⟩ := h
      exact ⟨rfl, .inl rfl⟩

theorem ExpPart.notHead {ex : Str} (h : ExpPart ex) (p : UInt8 → Bool) (h1 : p 101 = false) (h2 : p 69 = false) : NotHead p ex := by
  rcases h with rfl | ⟨e, sg, d, rfl, he, _⟩
  · intro c r h; cases h
  · refine notHead_cons ?_ _
    rcases he with rfl | rfl <;> assumption

theorem takeFrac_of {fr ex : Str} (hf : FracPart fr) (he : ExpPart ex) : takeFrac (fr ++ ex) = some (fr, ex) := by
  rcases hf with rfl | ⟨d, rfl, hd, hd'⟩
  · cases ex with
    | nil => rfl
    | cons e ex =>
      have : e ≠ 46 := by
        have := he.notHead (fun c => c == 46) (by decide) (by decide) e ex rfl
        simpa using this
      simp [takeFrac, this]
  · obtain ⟨h1, h2⟩ := takeWhile_append_notHead (p := isDigit) (d := d) (x := ex) (by simpa using hd') (he.notHead _ (by decide) (by decide))
    simp [takeFrac, h1, h2, hd]

theorem fracExp_notHead {fr ex : Str} (hf : FracPart fr) (he : ExpPart ex) : NotHead isDigit (fr ++ ex) := by
  rcases hf with rfl | ⟨d, rfl, _⟩
  · exact he.notHead _ (by decide) (by decide)
  · exact notHead_cons (by decide) _

theorem numOfBody_sound {C : NumConv} {neg : Bool} {b : Str} {n : JsonNum} (h : numOfBody C neg b = some n) : NumText C n (minus neg ++ b) := by
  unfold numOfBody at h
  split at h
  · rename_i hi
    rw [isIntPart_iff] at hi
    cases hf : takeFrac (b.dropWhile isDigit) with
    | none => rw [hf] at h; cases h
    | some x =>
      obtain ⟨fr, ex⟩ := x
      rw [hf] at h
      simp only at h
      obtain ⟨h1, h2⟩ := takeFrac_some hf
      split at h
      · rename_i hx
        rw [isExpPart_iff] at hx
        have hb : b = b.takeWhile isDigit ++ (fr ++ ex) := by rw [← h1, List.takeWhile_append_dropWhile]
        split at h
        · rename_i hc
          simp only [Option.some.injEq] at h
          subst h
          rw [hc.1, List.append_nil] at hb
          have hi' : IntPart b := by rw [hb]; exact hi
          exact .int neg b hi' hc.2
        · rename_i hc
          simp only [Option.map_eq_some_iff] at h
          obtain ⟨f, h, rfl⟩ := h
          by_cases he : fr ++ ex = []
          · rw [he, List.append_nil] at hb
            have hi' : IntPart b := by rw [hb]; exact hi
            exact .big neg b f hi' (fun hv => hc ⟨he, hv⟩) h
          · have := NumText.real (C := C) neg (b.takeWhile isDigit) fr ex f hi h2 hx he (by
              rw [List.append_assoc, List.append_assoc, ← hb]; exact h)
            rw [List.append_assoc, List.append_assoc, ← hb] at this
            exact this
      · cases h
  · cases h

theorem numOfBody_of {C : NumConv} {neg : Bool} {i fr ex : Str} (hi : IntPart i) (hf : FracPart fr) (he : ExpPart ex) :
    numOfBody C neg (i ++ (fr ++ ex)) =
      if fr ++ ex = [] ∧ (JsonNum.int (signed neg i)).Valid then some (.int (signed neg i))
      else (C.conv (minus neg ++ (i ++ (fr ++ ex)))).map .dbl := by
  obtain ⟨h1, h2⟩ := takeWhile_append_notHead (p := isDigit) (d := i) (x := fr ++ ex) (by simpa using hi.all) (fracExp_notHead hf he)
  unfold numOfBody
  rw [h1, h2, (isIntPart_iff i).2 hi, takeFrac_of hf he]
  simp only [(isExpPart_iff ex).2 he, if_true]
  by_cases hn : fr ++ ex = []
  · rw [hn, List.append_nil]
  · simp [hn]

theorem numOf_signed {C : NumConv} {neg : Bool} {i x : Str} (hi : IntPart i) : numOf C (minus neg ++ (i ++ x)) = numOfBody C neg (i ++ x) := by
  cases neg with
  | true => simp [minus, numOf]
  | false =>
    obtain ⟨c, r, rfl, hc⟩ := hi.cons
    have : c ≠ 45 := isDigit_ne hc (by decide)
    simp [minus, numOf, this]

theorem numOf_iff (C : NumConv) (s : Str) (n : JsonNum) : numOf C s = some n ↔ NumText C n s := by
  constructor
  · intro h
    unfold numOf at h
    cases s with
    | nil => cases h
    | cons c r =>
      simp only at h
      split at h
      · rename_i hc
        have := numOfBody_sound h
        rw [hc]; exact this
      · exact numOfBody_sound h
  · intro h
    cases h with
    | int neg i hi hv =>
      have h1 := numOf_signed (C := C) (neg := neg) (x := [] ++ []) hi
      rw [numOfBody_of hi (.inl rfl) (.inl rfl)] at h1
      simpa [hv] using h1
    | big neg i f hi hv hc =>
      have h1 := numOf_signed (C := C) (neg := neg) (x := [] ++ []) hi
      rw [numOfBody_of hi (.inl rfl) (.inl rfl)] at h1
      simpa [hv, hc] using h1
    | real neg i fr ex f hi hf he hn hc =>
      have h1 := numOf_signed (C := C) (neg := neg) (x := fr ++ ex) hi
      rw [numOfBody_of hi hf he, if_neg (fun x => hn x.1)] at h1
      rw [List.append_assoc, List.append_assoc] at hc ⊢
      rw [h1, hc]
      rfl

theorem readChars_sound : ∀ (n : Nat) (s d r : Str), s.length ≤ n → readChars s = some (d, r) → ∃ t, Chars d t ∧ s = t ++ 34 :: r
  | 0, s, d, r, hn, h => by
    cases s with
    | nil => simp [readChars] at h
    | cons c s => simp at hn
  | n+1, s, d, r, hn, h => by
    cases s with
    | nil => simp [readChars] at h
    | cons c s =>
      rw [readChars.eq_def] at h
      simp only at h
      split at h
      · rename_i hc
        simp only [Option.some.injEq, Prod.mk.injEq] at h
        obtain ⟨rfl, rfl⟩ := h
        exact ⟨[], .nil, by rw [hc]; rfl⟩
      rename_i hq
      split at h
      · rename_i hc
        subst hc
        cases s with
        | nil => cases h
        | cons e s =>
          simp only at h
          split at h
          · rename_i he
            subst he
            rcases s with _ | ⟨h1, _ | ⟨h2, _ | ⟨h3, _ | ⟨h4, s⟩⟩⟩⟩
            · cases h
            · cases h
            · cases h
            · cases h
            simp only at h
            cases hx : hex4 h1 h2 h3 h4 with
            | none => rw [hx] at h; cases h
            | some k =>
              rw [hx] at h
              simp only at h
              split at h
              · rename_i hk
                rcases s with _ | ⟨b, _ | ⟨u, _ | ⟨l1, _ | ⟨l2, _ | ⟨l3, _ | ⟨l4, s⟩⟩⟩⟩⟩⟩
                · cases h
                · cases h
                · cases h
                · cases h
                · cases h
                · cases h
                simp only at h
                cases hy : hex4 l1 l2 l3 l4 with
                | none => rw [hy] at h; cases h
                | some m =>
                  rw [hy] at h
                  simp only at h
                  split at h
                  · rename_i hc
                    obtain ⟨rfl, rfl, hc1, hc2, hc3⟩ := hc
                    simp only [Option.map_eq_some_iff, Prod.mk.injEq] at h
                    obtain ⟨⟨d', r'⟩, h, rfl, rfl⟩ := h
                    obtain ⟨t, ht, rfl⟩ := readChars_sound n s d' r' (by simp at hn; omega) h
                    exact ⟨_, .surrogates h1 h2 h3 h4 l1 l2 l3 l4 k m hx hy ⟨hk.1, hc1⟩ ⟨hc2, hc3⟩ ht, rfl⟩
                  · cases h
              · rename_i hk
                simp only [Option.map_eq_some_iff, Prod.mk.injEq] at h
                obtain ⟨⟨d', r'⟩, h, rfl, rfl⟩ := h
                obtain ⟨t, ht, rfl⟩ := readChars_sound n s d' r' (by simp at hn; omega) h
                exact ⟨_, .unicode h1 h2 h3 h4 k hx hk ht, rfl⟩
          · cases hx : escaped e with
            | none => rw [hx] at h; cases h
            | some x =>
              rw [hx] at h
              simp only [Option.map_eq_some_iff, Prod.mk.injEq] at h
              obtain ⟨⟨d', r'⟩, h, rfl, rfl⟩ := h
              obtain ⟨t, ht, rfl⟩ := readChars_sound n s d' r' (by simp at hn; omega) h
              exact ⟨_, .esc x e hx ht, rfl⟩
      rename_i hb
      split at h
      · cases h
      · rename_i hc
        simp only [Option.map_eq_some_iff, Prod.mk.injEq] at h
        obtain ⟨⟨d', r'⟩, h, rfl, rfl⟩ := h
        obtain ⟨t, ht, rfl⟩ := readChars_sound n s d' r' (by simp at hn; omega) h
        exact ⟨_, .plain c (by omega) hq hb ht, rfl⟩

theorem readChars_of {d t : Str} (h : Chars d t) (r : Str) : readChars (t ++ 34 :: r) = some (d, r) := by
  induction h with
  | nil => rw [List.nil_append, readChars.eq_def]; simp
  | plain c h1 h2 h3 _ ih =>
    rw [List.cons_append, readChars.eq_def]
    have : ¬ c.toNat < 32 := by omega
    simp [h2, h3, this, ih]
  | esc c e he _ ih =>
    have hu : e ≠ 117 := by rintro rfl; rw [show escaped 117 = none by decide] at he; cases he
    rw [List.cons_append, List.cons_append, readChars.eq_def]
    simp [hu, he, ih]
  | unicode h1 h2 h3 h4 n hx hn _ ih =>
    simp only [List.cons_append]
    rw [readChars.eq_def]
    simp only [show ¬ ((92 : UInt8) = 34) by decide, if_false, if_true, hx, hn, ih, Option.map_some]
  | surrogates h1 h2 h3 h4 l1 l2 l3 l4 n m hx hy hn hm _ ih =>
    simp only [List.cons_append]
    rw [readChars.eq_def]
    have c1 : 0xD800 ≤ n ∧ n ≤ 0xDFFF := by omega
    have c2 : n ≤ 0xDBFF ∧ 0xDC00 ≤ m ∧ m ≤ 0xDFFF := by omega
    simp only [show ¬ ((92 : UInt8) = 34) by decide, if_false, if_true, hx, hy, ih, Option.map_some]
    rw [if_pos c1]
    simp only [true_and]
    rw [if_pos c2]

theorem skipWord_some : ∀ {w s r : Str}, skipWord w s = some r ↔ s = w ++ r
  | [], s, r => by simp [skipWord]
  | c :: w, [], r => by simp [skipWord]
  | c :: w, d :: s, r => by
    simp only [skipWord, List.cons_append, List.cons.injEq]
    split
    · rename_i h; subst h; rw [skipWord_some]; simp
    · rename_i h; simp; intro h'; exact absurd h'.symm h

theorem skipWs_split (s : Str) : ∃ w, Ws w ∧ s = w ++ skipWs s ∧ NotHead isWs (skipWs s) :=
  ⟨s.takeWhile isWs, mem_takeWhile, by rw [skipWs, List.takeWhile_append_dropWhile], notHead_dropWhile _ _⟩

theorem skipWs_of {w x : Str} (hw : Ws w) (hx : NotHead isWs x) : skipWs (w ++ x) = x := (takeWhile_append_notHead hw hx).2

theorem skipWs_id {x : Str} (hx : NotHead isWs x) : skipWs x = x := skipWs_of (w := []) (by intro c h; cases h) hx

mutual
theorem readVal_sound {C : NumConv} : ∀ (n : Nat) (s : Str) (j : Json) (r : Str), readVal C n s = some (j, r) → ∃ t, s = t ++ r ∧ Den C j t
  | 0, _, _, _, h => by simp [readVal] at h
  | _+1, [], _, _, h => by simp [readVal] at h
  | n+1, c :: s, j, r, h => by
    rw [readVal.eq_def] at h
    simp only at h
    split at h
    · rename_i hc
      simp only [Option.map_eq_some_iff, Prod.mk.injEq] at h
      obtain ⟨x, h, rfl, rfl⟩ := h
      rw [skipWord_some] at h
      exact ⟨lit "null", by rw [h, hc]; rfl, .null⟩
    split at h
    · rename_i hc
      simp only [Option.map_eq_some_iff, Prod.mk.injEq] at h
      obtain ⟨x, h, rfl, rfl⟩ := h
      rw [skipWord_some] at h
      exact ⟨lit "true", by rw [h, hc]; rfl, .tt⟩
    split at h
    · rename_i hc
      simp only [Option.map_eq_some_iff, Prod.mk.injEq] at h
      obtain ⟨x, h, rfl, rfl⟩ := h
      rw [skipWord_some] at h
      exact ⟨lit "false", by rw [h, hc]; rfl, .ff⟩
    split at h
    · rename_i hc
      simp only [Option.map_eq_some_iff, Prod.mk.injEq] at h
      obtain ⟨⟨d, x⟩, h, rfl, rfl⟩ := h
      obtain ⟨t, ht, rfl⟩ := readChars_sound _ _ _ _ (Nat.le_refl _) h
      exact ⟨34 :: (t ++ [34]), by simp [hc], .str ht⟩
    split at h
    · rename_i hc
      obtain ⟨w, hw, hs, _⟩ := skipWs_split s
      split at h
      · rename_i hh
        simp only [Option.some.injEq, Prod.mk.injEq] at h
        obtain ⟨rfl, rfl⟩ := h
        cases hq : skipWs s with
        | nil => rw [hq] at hh; simp at hh
        | cons a b =>
          rw [hq] at hh hs
          simp only [List.head?_cons, Option.some.injEq] at hh
          exact ⟨91 :: (w ++ [93]), by rw [hs, hc, hh]; simp, .arrNil hw⟩
      · simp only [Option.map_eq_some_iff, Prod.mk.injEq] at h
        obtain ⟨⟨d, x⟩, h, rfl, rfl⟩ := h
        obtain ⟨t, rfl, ht⟩ := readItems_sound n s d x h
        exact ⟨91 :: (t ++ [93]), by rw [hc]; simp, .arr ht⟩
    split at h
    · rename_i hc
      obtain ⟨w, hw, hs, _⟩ := skipWs_split s
      split at h
      · rename_i hh
        simp only [Option.some.injEq, Prod.mk.injEq] at h
        obtain ⟨rfl, rfl⟩ := h
        cases hq : skipWs s with
        | nil => rw [hq] at hh; simp at hh
        | cons a b =>
          rw [hq] at hh hs
          simp only [List.head?_cons, Option.some.injEq] at hh
          exact ⟨123 :: (w ++ [125]), by rw [hs, hc, hh]; simp, .objNil hw⟩
      · simp only [Option.map_eq_some_iff, Prod.mk.injEq] at h
        obtain ⟨⟨d, x⟩, h, rfl, rfl⟩ := h
        obtain ⟨t, rfl, ht⟩ := readFields_sound n s d x h
        exact ⟨123 :: (t ++ [125]), by rw [hc]; simp, .obj ht⟩
    · simp only [Option.map_eq_some_iff, Prod.mk.injEq] at h
      obtain ⟨x, h, rfl, rfl⟩ := h
      rw [numOf_iff] at h
      exact ⟨_, (List.takeWhile_append_dropWhile).symm, .num h⟩

theorem readItems_sound {C : NumConv} : ∀ (n : Nat) (s : Str) (js : List Json) (r : Str), readItems C n s = some (js, r) →
    ∃ t, s = t ++ 93 :: r ∧ Items C js t
  | 0, _, _, _, h => by simp [readItems] at h
  | n+1, s, js, r, h => by
    rw [readItems.eq_def] at h
    simp only at h
    obtain ⟨w, hw, hs, _⟩ := skipWs_split s
    cases hv : readVal C n (skipWs s) with
    | none => rw [hv] at h; cases h
    | some x =>
      obtain ⟨j, r1⟩ := x
      rw [hv] at h
      simp only at h
      obtain ⟨t, ht, hd⟩ := readVal_sound n _ j r1 hv
      obtain ⟨w2, hw2, hs2, _⟩ := skipWs_split r1
      cases hq : skipWs r1 with
      | nil => rw [hq] at h; cases h
      | cons c r2 =>
        rw [hq] at h hs2
        simp only at h
        split at h
        · rename_i hc
          simp only [Option.some.injEq, Prod.mk.injEq] at h
          obtain ⟨rfl, rfl⟩ := h
          exact ⟨w ++ (t ++ w2), by rw [hs, ht, hs2, hc]; simp, .one hw hd hw2⟩
        split at h
        · rename_i hc
          simp only [Option.map_eq_some_iff, Prod.mk.injEq] at h
          obtain ⟨⟨d, x⟩, h, rfl, rfl⟩ := h
          obtain ⟨t', rfl, ht'⟩ := readItems_sound n r2 d x h
          exact ⟨w ++ (t ++ (w2 ++ 44 :: t')), by rw [hs, ht, hs2, hc]; simp, .more hw hd hw2 ht'⟩
        · cases h

theorem readFields_sound {C : NumConv} : ∀ (n : Nat) (s : Str) (ms : List (Str × Json)) (r : Str), readFields C n s = some (ms, r) →
    ∃ t, s = t ++ 125 :: r ∧ Fields C ms t
  | 0, _, _, _, h => by simp [readFields] at h
  | n+1, s, ms, r, h => by
    rw [readFields.eq_def] at h
    simp only at h
    obtain ⟨w, hw, hs, _⟩ := skipWs_split s
    cases hq : skipWs s with
    | nil => rw [hq] at h; cases h
    | cons q s1 =>
      rw [hq] at h hs
      simp only at h
      split at h
      case isFalse => cases h
      rename_i hc
      subst hc
      cases hk : readChars s1 with
      | none => rw [hk] at h; cases h
      | some x =>
        obtain ⟨k, s2⟩ := x
        rw [hk] at h
        simp only at h
        obtain ⟨kt, hkt, rfl⟩ := readChars_sound _ _ _ _ (Nat.le_refl _) hk
        obtain ⟨w2, hw2, hs2, _⟩ := skipWs_split s2
        cases hq2 : skipWs s2 with
        | nil => rw [hq2] at h; cases h
        | cons d s3 =>
          rw [hq2] at h hs2
          simp only at h
          split at h
          case isFalse => cases h
          rename_i hd
          subst hd
          obtain ⟨w3, hw3, hs3, _⟩ := skipWs_split s3
          cases hv : readVal C n (skipWs s3) with
          | none => rw [hv] at h; cases h
          | some x =>
            obtain ⟨j, r1⟩ := x
            rw [hv] at h
            simp only at h
            obtain ⟨t, ht, hd⟩ := readVal_sound n _ j r1 hv
            obtain ⟨w4, hw4, hs4, _⟩ := skipWs_split r1
            cases hq4 : skipWs r1 with
            | nil => rw [hq4] at h; cases h
            | cons c r2 =>
              rw [hq4] at h hs4
              simp only at h
              split at h
              · rename_i hc
                simp only [Option.some.injEq, Prod.mk.injEq] at h
                obtain ⟨rfl, rfl⟩ := h
                exact ⟨w ++ 34 :: (kt ++ 34 :: (w2 ++ 58 :: (w3 ++ (t ++ w4)))), by rw [hs, hs2, hs3, ht, hs4, hc]; simp,
                  .one hw hkt hw2 hw3 hd hw4⟩
              split at h
              · rename_i hc
                simp only [Option.map_eq_some_iff, Prod.mk.injEq] at h
                obtain ⟨⟨d, x⟩, h, rfl, rfl⟩ := h
                obtain ⟨t', rfl, ht'⟩ := readFields_sound n r2 d x h
                exact ⟨w ++ 34 :: (kt ++ 34 :: (w2 ++ 58 :: (w3 ++ (t ++ (w4 ++ 44 :: t'))))), by rw [hs, hs2, hs3, ht, hs4, hc]; simp,
                  .more hw hkt hw2 hw3 hd hw4 ht'⟩
              · cases h
end

mutual
theorem readVal_of {C : NumConv} {j : Json} {t : Str} : Den C j t → ∀ (n : Nat) (r : Str), 2 * t.length + 1 ≤ n → Stops r →
    readVal C n (t ++ r) = some (j, r)
  | .null, n, r, hn, hr => by
    obtain ⟨n, rfl⟩ : ∃ m, n = m + 1 := ⟨n - 1, by omega⟩
    show readVal C (n+1) (110 :: (lit "ull" ++ r)) = _
    rw [readVal.eq_def]
    simp [skipWord_some.2 rfl]
  | .tt, n, r, hn, hr => by
    obtain ⟨n, rfl⟩ : ∃ m, n = m + 1 := ⟨n - 1, by omega⟩
    show readVal C (n+1) (116 :: (lit "rue" ++ r)) = _
    rw [readVal.eq_def]
    simp [skipWord_some.2 rfl]
  | .ff, n, r, hn, hr => by
    obtain ⟨n, rfl⟩ : ∃ m, n = m + 1 := ⟨n - 1, by omega⟩
    show readVal C (n+1) (102 :: (lit "alse" ++ r)) = _
    rw [readVal.eq_def]
    simp [skipWord_some.2 rfl]
  | .num h, n, r, hn, hr => by
    obtain ⟨n, rfl⟩ : ∃ m, n = m + 1 := ⟨n - 1, by omega⟩
    obtain ⟨c, s, rfl, hc⟩ := h.first
    obtain ⟨h1, h2⟩ := takeWhile_append_notHead h.chars hr
    rw [List.cons_append] at h1 h2 ⊢
    rw [readVal.eq_def]
    have hx : c ≠ 110 ∧ c ≠ 116 ∧ c ≠ 102 ∧ c ≠ 34 ∧ c ≠ 91 ∧ c ≠ 123 := by
      rcases hc with rfl | hc
      · decide
      · exact ⟨isDigit_ne hc (by decide), isDigit_ne hc (by decide), isDigit_ne hc (by decide), isDigit_ne hc (by decide),
          isDigit_ne hc (by decide), isDigit_ne hc (by decide)⟩
    simp only [hx, if_false, h1, h2, (numOf_iff _ _ _).2 h, Option.map_some]
  | .str h, n, r, hn, hr => by
    obtain ⟨n, rfl⟩ : ∃ m, n = m + 1 := ⟨n - 1, by omega⟩
    rw [List.cons_append, readVal.eq_def]
    simp [readChars_of h r]
  | .arrNil (w := w) hw, n, r, hn, hr => by
    obtain ⟨n, rfl⟩ : ∃ m, n = m + 1 := ⟨n - 1, by omega⟩
    have h := skipWs_of (x := 93 :: r) hw (notHead_cons (by decide) _)
    rw [List.cons_append, List.append_assoc, List.cons_append, List.nil_append, readVal.eq_def]
    simp [h]
  | .arr (s := s) hi, n, r, hn, hr => by
    obtain ⟨n, rfl⟩ : ∃ m, n = m + 1 := ⟨n - 1, by omega⟩
    have ih := readItems_of hi n r (by simp at hn; omega)
    obtain ⟨w, x, rfl, hw, hx⟩ := items_start hi
    have h := skipWs_of (x := x ++ 93 :: r) hw (hx _).1
    have hh : (x ++ 93 :: r).head? ≠ some 93 := by
      intro he
      cases hq : x ++ 93 :: r with
      | nil => simp at hq
      | cons a b =>
        rw [hq] at he
        have := (hx (93 :: r)).2 a b hq
        simp at he this
        exact this he
    rw [List.append_assoc] at ih
    rw [List.cons_append, List.append_assoc, List.append_assoc, List.cons_append, List.nil_append, readVal.eq_def]
    generalize x ++ 93 :: r = y at h hh ih
    simp [h, hh, ih]
  | .objNil (w := w) hw, n, r, hn, hr => by
    obtain ⟨n, rfl⟩ : ∃ m, n = m + 1 := ⟨n - 1, by omega⟩
    have h := skipWs_of (x := 125 :: r) hw (notHead_cons (by decide) _)
    rw [List.cons_append, List.append_assoc, List.cons_append, List.nil_append, readVal.eq_def]
    simp [h]
  | .obj (s := s) hi, n, r, hn, hr => by
    obtain ⟨n, rfl⟩ : ∃ m, n = m + 1 := ⟨n - 1, by omega⟩
    have ih := readFields_of hi n r (by simp at hn; omega)
    obtain ⟨w, x, rfl, hw⟩ := fields_start hi
    have h := skipWs_of (x := 34 :: (x ++ 125 :: r)) hw (notHead_cons (by decide) _)
    rw [List.append_assoc, List.cons_append] at ih
    rw [List.cons_append, List.append_assoc, List.append_assoc, List.cons_append, List.cons_append, List.nil_append, readVal.eq_def]
    simp [h, ih]

theorem readItems_of {C : NumConv} {js : List Json} {t : Str} : Items C js t → ∀ (n : Nat) (r : Str), 2 * t.length + 2 ≤ n →
    readItems C n (t ++ 93 :: r) = some (js, r)
  | .one (w1 := w1) (w2 := w2) (s := s) hw1 hd hw2, n, r, hn => by
    obtain ⟨n, rfl⟩ : ∃ m, n = m + 1 := ⟨n - 1, by omega⟩
    have ih := readVal_of hd n (w2 ++ 93 :: r) (by simp at hn; omega) (stops_ws hw2 (by decide) r)
    have h1 := skipWs_of (x := s ++ (w2 ++ 93 :: r)) hw1 (hd.notWs _)
    have h2 := skipWs_of (x := 93 :: r) hw2 (notHead_cons (by decide) _)
    rw [readItems.eq_def]
    simp [h1, h2, ih]
  | .more (w1 := w1) (w2 := w2) (s := s) (t := t) hw1 hd hw2 ht, n, r, hn => by
    obtain ⟨n, rfl⟩ : ∃ m, n = m + 1 := ⟨n - 1, by omega⟩
    have ih := readVal_of hd n (w2 ++ 44 :: (t ++ 93 :: r)) (by simp at hn; omega) (stops_ws hw2 (by decide) _)
    have ih2 := readItems_of ht n r (by simp at hn; omega)
    have h1 := skipWs_of (x := s ++ (w2 ++ 44 :: (t ++ 93 :: r))) hw1 (hd.notWs _)
    have h2 := skipWs_of (x := 44 :: (t ++ 93 :: r)) hw2 (notHead_cons (by decide) _)
    rw [readItems.eq_def]
    simp [h1, h2, ih, ih2]

theorem readFields_of {C : NumConv} {ms : List (Str × Json)} {t : Str} : Fields C ms t → ∀ (n : Nat) (r : Str), 2 * t.length + 2 ≤ n →
    readFields C n (t ++ 125 :: r) = some (ms, r)
  | .one (w1 := w1) (w2 := w2) (w3 := w3) (w4 := w4) (k := k) (kt := kt) (s := s) hw1 hk hw2 hw3 hd hw4, n, r, hn => by
    obtain ⟨n, rfl⟩ : ∃ m, n = m + 1 := ⟨n - 1, by omega⟩
    have ih := readVal_of hd n (w4 ++ 125 :: r) (by simp at hn; omega) (stops_ws hw4 (by decide) r)
    have h1 := skipWs_of (x := 34 :: (kt ++ 34 :: (w2 ++ 58 :: (w3 ++ (s ++ (w4 ++ 125 :: r)))))) hw1 (notHead_cons (by decide) _)
    have h2 := skipWs_of (x := 58 :: (w3 ++ (s ++ (w4 ++ 125 :: r)))) hw2 (notHead_cons (by decide) _)
    have h3 := skipWs_of (x := s ++ (w4 ++ 125 :: r)) hw3 (hd.notWs _)
    have h4 := skipWs_of (x := 125 :: r) hw4 (notHead_cons (by decide) _)
    have hc := readChars_of hk (w2 ++ 58 :: (w3 ++ (s ++ (w4 ++ 125 :: r))))
    rw [readFields.eq_def]
    simp [h1, h2, h3, h4, hc, ih]
  | .more (w1 := w1) (w2 := w2) (w3 := w3) (w4 := w4) (k := k) (kt := kt) (s := s) (t := t) hw1 hk hw2 hw3 hd hw4 ht, n, r, hn => by
    obtain ⟨n, rfl⟩ : ∃ m, n = m + 1 := ⟨n - 1, by omega⟩
    have ih := readVal_of hd n (w4 ++ 44 :: (t ++ 125 :: r)) (by simp at hn; omega) (stops_ws hw4 (by decide) _)
    have ih2 := readFields_of ht n r (by simp at hn; omega)
    have h1 := skipWs_of (x := 34 :: (kt ++ 34 :: (w2 ++ 58 :: (w3 ++ (s ++ (w4 ++ 44 :: (t ++ 125 :: r))))))) hw1 (notHead_cons (by decide) _)
    have h2 := skipWs_of (x := 58 :: (w3 ++ (s ++ (w4 ++ 44 :: (t ++ 125 :: r))))) hw2 (notHead_cons (by decide) _)
    have h3 := skipWs_of (x := s ++ (w4 ++ 44 :: (t ++ 125 :: r))) hw3 (hd.notWs _)
    have h4 := skipWs_of (x := 44 :: (t ++ 125 :: r)) hw4 (notHead_cons (by decide) _)
    have hc := readChars_of hk (w2 ++ 58 :: (w3 ++ (s ++ (w4 ++ 44 :: (t ++ 125 :: r)))))
    rw [readFields.eq_def]
    simp [h1, h2, h3, h4, hc, ih, ih2]
end

theorem ws_notHead {w : Str} (hw : Ws w) : skipWs w = [] := by
  have := skipWs_of (x := []) hw (by intro c r h; cases h)
  rwa [List.append_nil] at this

theorem skipWs_nil {r : Str} (h : skipWs r = []) : Ws r := by
  obtain ⟨w, hw, hs, _⟩ := skipWs_split r
  rw [hs, h, List.append_nil]; exact hw

/-- The reader accepts exactly the JSON texts. -/
theorem readDoc_iff (C : NumConv) (w : Str) (j : Json) : readDoc C w = some j ↔ Denotes C j w := by
  constructor
  · intro h
    unfold readDoc at h
    cases hv : readVal C (2 * w.length + 1) (skipWs w) with
    | none => rw [hv] at h; cases h
    | some x =>
      obtain ⟨j', r⟩ := x
      rw [hv] at h
      simp only at h
      split at h
      · rename_i hr
        simp only [Option.some.injEq] at h
        subst h
        obtain ⟨t, ht, hd⟩ := readVal_sound _ _ _ _ hv
        obtain ⟨w1, hw1, hs, _⟩ := skipWs_split w
        exact ⟨w1, t, r, hw1, hd, skipWs_nil hr, by rw [hs, ht]⟩
      · cases h
  · rintro ⟨w1, t, w2, hw1, hd, hw2, rfl⟩
    unfold readDoc
    rw [skipWs_of hw1 (hd.notWs _), readVal_of hd _ w2 (by simp; omega) (stops_of_ws hw2)]
    simp [ws_notHead hw2]

/-- A reader that can be evaluated. What the handlers are told of a text that is no JSON text is left open by the contract; here it
is nothing. -/
def plainReader (C : NumConv) : Reader C where
  read := fun w => match readDoc C w with
    | some j => .document j
    | none => .broken []
  accepts := by
    intro w j
    rw [← readDoc_iff]
    cases readDoc C w <;> simp

end Verif.Text
