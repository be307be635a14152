import Verif.NumberText

/-!
# The texts that `strtod` reads

C11 7.22.1.3: `strtod` reads "the longest initial subsequence of the input string, starting with the first
non-white-space character, that is of the expected form". Here the expected form is a grammar, and `strtodLen`
(`NumberText`), which computes with positions, is shown to give the length of the longest such prefix.
-/

namespace Verif.Text
open Verif.Core

/-! ## Grammar (specification) -/

/-- `0` to `9`. -/
def DecDigit (c : UInt8) : Prop := 48 ≤ c.toNat ∧ c.toNat ≤ 57

/-- `0` to `9`, `A` to `F`, `a` to `f`. -/
def HexDigit (c : UInt8) : Prop := DecDigit c ∨ (65 ≤ c.toNat ∧ c.toNat ≤ 70) ∨ (97 ≤ c.toNat ∧ c.toNat ≤ 102)

/-- Space, tab, line feed, vertical tab, form feed, carriage return. -/
def Blank (c : UInt8) : Prop := c = 32 ∨ c = 9 ∨ c = 10 ∨ c = 11 ∨ c = 12 ∨ c = 13

/-- Digits with a point in, before or behind them, or none; at least one digit. -/
inductive Mant (P : UInt8 → Prop) : Str → Prop
  | whole (i : Str) : i ≠ [] → (∀ c ∈ i, P c) → Mant P i
  | point (i d : Str) : i ++ d ≠ [] → (∀ c ∈ i, P c) → (∀ c ∈ d, P c) → Mant P (i ++ 46 :: d)

/-- An optional exponent: one of the two letters, an optional sign, decimal digits. -/
inductive Expo (lower upper : UInt8) : Str → Prop
  | none : Expo lower upper []
  | some (c : UInt8) (sg d : Str) : (c = lower ∨ c = upper) → (sg = [] ∨ sg = [43] ∨ sg = [45]) → d ≠ [] → (∀ x ∈ d, DecDigit x) →
      Expo lower upper (c :: (sg ++ d))

/-- The word in upper or lower case or mixed. -/
def AnyCase (word s : Str) : Prop := s.length = word.length ∧ ∀ i (h : i < s.length) (h' : i < word.length), s[i] = word[i] ∨ s[i].toNat + 32 = word[i].toNat

/-- A subject sequence without sign. -/
inductive Subject : Str → Prop
  | dec (m e : Str) : Mant DecDigit m → Expo 101 69 e → Subject (m ++ e)
  | hex (x : UInt8) (m e : Str) : x = 120 ∨ x = 88 → Mant HexDigit m → Expo 112 80 e → Subject (48 :: x :: (m ++ e))
  | inf (w : Str) : AnyCase (lit "inf") w → Subject w
  | infinity (w : Str) : AnyCase (lit "infinity") w → Subject w
  | nan (w : Str) : AnyCase (lit "nan") w → Subject w
  | nanSeq (w cs : Str) : AnyCase (lit "nan") w → (∀ c ∈ cs, DecDigit c ∨ c = 95 ∨ (65 ≤ c.toNat ∧ c.toNat ≤ 90) ∨ (97 ≤ c.toNat ∧ c.toNat ≤ 122)) →
      Subject (w ++ 40 :: (cs ++ [41]))

/-- What `strtod` reads: blanks, an optional sign, a subject sequence. -/
inductive Strtod : Str → Prop
  | mk (ws sg b : Str) : (∀ c ∈ ws, Blank c) → (sg = [] ∨ sg = [43] ∨ sg = [45]) → Subject b → Strtod (ws ++ sg ++ b)

/-- The text has a prefix of the form, and `n` is the length of the longest one; or it has none and `n` is 0. -/
def Longest (P : Str → Prop) (s : Str) (n : Nat) : Prop :=
  (∀ a b, s = a ++ b → P a → a.length ≤ n) ∧ ((n = 0 ∧ ∀ a b, s = a ++ b → ¬ P a) ∨ ∃ a b, s = a ++ b ∧ P a ∧ a.length = n)

/-! ## Characters -/

theorem byte_all {p : UInt8 → Prop} (h : ∀ n : Fin 256, p (UInt8.ofNat n)) (c : UInt8) : p c := by
  have := h ⟨c.toNat, c.toNat_lt⟩
  simpa using this

theorem isDigit_dec (c : UInt8) : isDigit c = true ↔ DecDigit c := by simp [isDigit, DecDigit]

theorem isHexDigit_hex (c : UInt8) : isHexDigit c = true ↔ HexDigit c := by
  simp [isHexDigit, HexDigit, isDigit_dec, or_assoc]

theorem isSpace_blank (c : UInt8) : isSpace c = true ↔ Blank c := by
  unfold Blank
  revert c
  exact byte_all (by decide +kernel)

theorem toLower_e (c : UInt8) : toLower c = 101 ↔ c = 101 ∨ c = 69 := by revert c; exact byte_all (by decide +kernel)
theorem toLower_p (c : UInt8) : toLower c = 112 ↔ c = 112 ∨ c = 80 := by revert c; exact byte_all (by decide +kernel)
theorem toLower_x (c : UInt8) : toLower c = 120 ↔ c = 120 ∨ c = 88 := by revert c; exact byte_all (by decide +kernel)

/-! ## Exponent -/

theorem all_iff {p : UInt8 → Bool} {P : UInt8 → Prop} (hp : ∀ c, p c = true ↔ P c) {s : Str} : s.all p = true ↔ ∀ c ∈ s, P c := by
  simp [List.all_eq_true, hp]

theorem takeWhile_ge {p : UInt8 → Bool} (a b : Str) (h : a.all p = true) : a.length ≤ ((a ++ b).takeWhile p).length := by
  rw [List.takeWhile_append_of_pos (List.all_eq_true.mp h)]
  simp

theorem expLen_le {mark lo up : UInt8} (hm : ∀ c, toLower c = mark ↔ c = lo ∨ c = up) (a b : Str) (h : Expo lo up a) :
    a.length ≤ expLen mark (a ++ b) := by
  cases h with
  | none => simp
  | some c sg d hc hs hd hall =>
    have hc' := (hm c).2 hc
    have hall' := (all_iff isDigit_dec).2 hall
    have hge := takeWhile_ge d b hall'
    have hdl : 0 < d.length := List.length_pos_iff.2 hd
    obtain ⟨x, r, rfl⟩ := List.exists_cons_of_ne_nil hd
    have hx : isDigit x = true := (isDigit_dec x).2 (hall x (by simp))
    have h43 : x ≠ 43 := isDigit_ne hx (by decide)
    have h45 : x ≠ 45 := isDigit_ne hx (by decide)
    rcases hs with rfl | rfl | rfl
    · have hh : ¬ (((x :: r) ++ b).head? = .some 43 ∨ ((x :: r) ++ b).head? = .some 45) := by simp [h43, h45]
      simp only [List.nil_append, List.cons_append, expLen, hc', if_true]
      simp only [List.cons_append] at hh
      rw [if_neg hh]
      simp only [List.drop_zero]
      simp only [List.cons_append] at hge
      rw [if_neg (by omega)]
      simp only [List.length_cons] at *
      omega
    · simp only [List.cons_append, List.nil_append, expLen, hc', if_true, List.head?_cons, true_or, List.drop_succ_cons, List.drop_zero]
      simp only [List.cons_append] at hge
      rw [if_neg (by omega)]
      simp only [List.length_cons] at *
      omega
    · simp only [List.cons_append, List.nil_append, expLen, hc', if_true, List.head?_cons, or_true, List.drop_succ_cons, List.drop_zero]
      simp only [List.cons_append] at hge
      rw [if_neg (by omega)]
      simp only [List.length_cons] at *
      omega

theorem takeWhile_split (p : UInt8 → Bool) (s : Str) : s = s.takeWhile p ++ s.dropWhile p := (List.takeWhile_append_dropWhile).symm

theorem takeWhile_all {p : UInt8 → Bool} {P : UInt8 → Prop} (hp : ∀ c, p c = true ↔ P c) (s : Str) : ∀ c ∈ s.takeWhile p, P c :=
  (all_iff hp).1 List.all_takeWhile

theorem expLen_mem {mark lo up : UInt8} (hm : ∀ c, toLower c = mark ↔ c = lo ∨ c = up) (s : Str) :
    ∃ a b, s = a ++ b ∧ Expo lo up a ∧ a.length = expLen mark s := by
  have hnone : expLen mark s = 0 → ∃ a b, s = a ++ b ∧ Expo lo up a ∧ a.length = expLen mark s := fun h => ⟨[], s, rfl, .none, h.symm⟩
  cases s with
  | nil => exact hnone rfl
  | cons c r =>
    by_cases hc : toLower c = mark
    · have key : ∀ sg r', r = sg ++ r' → (sg = [] ∨ sg = [43] ∨ sg = [45]) → (if r.head? = .some 43 ∨ r.head? = .some 45 then 1 else 0) = sg.length →
          ∃ a b, c :: r = a ++ b ∧ Expo lo up a ∧ a.length = expLen mark (c :: r) := by
        intro sg r' hr hsg hlen
        by_cases hd : (r'.takeWhile isDigit).length = 0
        · apply hnone
          simp only [expLen, hc, if_true, hlen]
          rw [hr, List.drop_left, if_pos hd]
        · refine ⟨c :: (sg ++ r'.takeWhile isDigit), r'.dropWhile isDigit, ?_, .some c sg _ ((hm c).1 hc) hsg ?_ (takeWhile_all isDigit_dec r'), ?_⟩
          · rw [hr]
            simp only [List.cons_append, List.append_assoc]
            rw [← takeWhile_split]
          · intro h; exact hd (by rw [h]; rfl)
          · simp only [expLen, hc, if_true, hlen]
            rw [hr, List.drop_left, if_neg hd]
            simp only [List.length_cons, List.length_append]
            omega
      cases r with
      | nil => exact key [] [] rfl (.inl rfl) (by simp)
      | cons x r =>
        by_cases h1 : x = 43
        · subst h1; exact key [43] r rfl (.inr (.inl rfl)) (by simp)
        · by_cases h2 : x = 45
          · subst h2; exact key [45] r rfl (.inr (.inr rfl)) (by simp)
          · exact key [] (x :: r) rfl (.inl rfl) (by simp [h1, h2])
    · exact hnone (by simp [expLen, hc])

/-! ## Digits and point -/

theorem Mant.ne {P : UInt8 → Prop} {a : Str} (h : Mant P a) : a ≠ [] := by
  cases h with
  | whole _ h1 h2 => exact h1
  | point i d => simp

theorem mantLen_le {p : UInt8 → Bool} {P : UInt8 → Prop} (hp : ∀ c, p c = true ↔ P c) (h46 : p 46 = false) (a b : Str) (h : Mant P a) :
    a.length ≤ mantLen p (a ++ b) := by
  cases h with
  | whole _ hne hall =>
    have hge := takeWhile_ge a b ((all_iff hp).2 hall)
    have hl : 0 < a.length := List.length_pos_iff.2 hne
    simp only [mantLen]
    split
    · rw [if_neg (by omega)]; omega
    · exact hge
  | point i d hne hi hd =>
    have hsp := span_append (x := 46 :: (d ++ b)) ((all_iff hp).2 hi) (by intro c r h; injection h with h _; rw [← h]; exact h46)
    have hge := takeWhile_ge d b ((all_iff hp).2 hd)
    have hl : 0 < (i ++ d).length := List.length_pos_iff.2 hne
    rw [List.length_append] at hl
    simp only [List.append_assoc, List.cons_append, mantLen, hsp.1, hsp.2, List.head?_cons, if_true, List.tail_cons]
    rw [if_neg (by omega)]
    simp only [List.length_append, List.length_cons]
    omega

theorem mantLen_eq {p : UInt8 → Bool} {P : UInt8 → Prop} (hp : ∀ c, p c = true ↔ P c) (h46 : p 46 = false) (a b : Str) (c : UInt8)
    (h : Mant P a) (hc : p c = false) (hc' : c ≠ 46) : mantLen p (a ++ c :: b) = a.length := by
  have hn : NotHead p (c :: b) := by intro x r hx; injection hx with hx _; rw [← hx]; exact hc
  cases h with
  | whole _ hne hall =>
    have hsp := span_append ((all_iff hp).2 hall) hn
    simp only [mantLen, hsp.1, hsp.2, List.head?_cons, Option.some.injEq, if_neg hc']
  | point i d hne hi hd =>
    have hsp := span_append (x := 46 :: (d ++ c :: b)) ((all_iff hp).2 hi) (by intro c r h; injection h with h _; rw [← h]; exact h46)
    have hsd := span_append ((all_iff hp).2 hd) hn
    have hl : 0 < (i ++ d).length := List.length_pos_iff.2 hne
    rw [List.length_append] at hl
    simp only [List.append_assoc, List.cons_append, mantLen, hsp.1, hsp.2, List.head?_cons, if_true, List.tail_cons, hsd.1]
    rw [if_neg (by omega)]
    simp only [List.length_append, List.length_cons]
    omega

theorem mantLen_mem {p : UInt8 → Bool} {P : UInt8 → Prop} (hp : ∀ c, p c = true ↔ P c) (s : Str) (h0 : mantLen p s ≠ 0) :
    ∃ a b, s = a ++ b ∧ Mant P a ∧ a.length = mantLen p s := by
  by_cases hh : (s.dropWhile p).head? = some 46
  · cases hr : s.dropWhile p with
    | nil => rw [hr] at hh; simp at hh
    | cons x r =>
      rw [hr] at hh
      simp only [List.head?_cons, Option.some.injEq] at hh
      subst hh
      by_cases h1 : (s.takeWhile p).length + (r.takeWhile p).length = 0
      · have hm : mantLen p s = 0 := by simp [mantLen, hr, h1]
        exact absurd hm h0
      · have hm : mantLen p s = (s.takeWhile p).length + 1 + (r.takeWhile p).length := by
          unfold mantLen
          rw [hr]
          exact if_neg h1
        rw [hm]
        refine ⟨s.takeWhile p ++ 46 :: r.takeWhile p, r.dropWhile p, ?_, .point _ _ ?_ (takeWhile_all hp s) (takeWhile_all hp r), ?_⟩
        · have := takeWhile_split p s
          rw [hr] at this
          rw [List.append_assoc, List.cons_append, ← takeWhile_split]
          exact this
        · intro h
          apply h1
          rw [← List.length_append, h]; rfl
        · simp only [List.length_append, List.length_cons]; omega
  · simp only [mantLen, hh, if_false] at h0 ⊢
    exact ⟨s.takeWhile p, s.dropWhile p, takeWhile_split p s, .whole _ (fun h => h0 (by rw [h]; rfl)) (takeWhile_all hp s), rfl⟩

/-! ## Numbers -/

/-- Digits with point and exponent. -/
def Num (P : UInt8 → Prop) (lo up : UInt8) (s : Str) : Prop := ∃ m e, s = m ++ e ∧ Mant P m ∧ Expo lo up e

theorem numLen_le {p : UInt8 → Bool} {P : UInt8 → Prop} (hp : ∀ c, p c = true ↔ P c) (h46 : p 46 = false) {mark lo up : UInt8}
    (hm : ∀ c, toLower c = mark ↔ c = lo ∨ c = up) (hlo : p lo = false ∧ lo ≠ 46) (hup : p up = false ∧ up ≠ 46) (a b : Str) (h : Num P lo up a) :
    a.length ≤ numLen p mark (a ++ b) ∧ numLen p mark (a ++ b) ≠ 0 := by
  obtain ⟨m, e, rfl, h1, h2⟩ := h
  have hpos : 0 < m.length := List.length_pos_iff.2 h1.ne
  have hle := mantLen_le hp h46 m (e ++ b) h1
  simp only [numLen, List.append_assoc]
  rw [if_neg (by omega)]
  refine ⟨?_, by omega⟩
  have he := expLen_le hm e b h2
  cases h2 with
  | none => simp only [List.append_nil]; omega
  | some c sg d hc hs hd hall =>
    have hcc : p c = false ∧ c ≠ 46 := by rcases hc with rfl | rfl <;> assumption
    have heq := mantLen_eq hp h46 m ((sg ++ d) ++ b) c h1 hcc.1 hcc.2
    simp only [List.cons_append] at he ⊢
    rw [heq, List.drop_left]
    simp only [List.length_append, List.length_cons] at he ⊢
    omega

theorem numLen_mem {p : UInt8 → Bool} {P : UInt8 → Prop} (hp : ∀ c, p c = true ↔ P c) {mark lo up : UInt8}
    (hm : ∀ c, toLower c = mark ↔ c = lo ∨ c = up) (s : Str) (h0 : numLen p mark s ≠ 0) :
    ∃ a b, s = a ++ b ∧ Num P lo up a ∧ a.length = numLen p mark s := by
  simp only [numLen] at h0 ⊢
  split at h0
  · exact absurd rfl h0
  · rename_i h1
    rw [if_neg h1]
    obtain ⟨m, r, hs, hmant, hl⟩ := mantLen_mem hp s h1
    obtain ⟨e, b, hr, hexp, hl'⟩ := expLen_mem hm r
    refine ⟨m ++ e, b, by rw [hs, hr, List.append_assoc], ⟨m, e, rfl, hmant, hexp⟩, ?_⟩
    rw [← hl, List.length_append, hl']
    conv => rhs; rw [hs, List.drop_left]

/-! ## Words -/

theorem anyCase_iff (word s : Str) (hw : ∀ c ∈ word, 97 ≤ c.toNat ∧ c.toNat ≤ 122) : AnyCase word s ↔ s.map toLower = word := by
  have hchar : ∀ c w : UInt8, 97 ≤ w.toNat ∧ w.toNat ≤ 122 → (toLower c = w ↔ c = w ∨ c.toNat + 32 = w.toNat) := by
    intro c w hw
    unfold toLower
    have hc : ∀ h : 65 ≤ c.toNat ∧ c.toNat ≤ 90, (c + 32).toNat = c.toNat + 32 := by
      intro h
      rw [UInt8.toNat_add]
      have : (32 : UInt8).toNat = 32 := rfl
      omega
    constructor
    · intro h
      split at h
      · rename_i hr; right; rw [← h, hc hr]
      · exact .inl h
    · intro h
      split
      · rename_i hr
        apply UInt8.toNat.inj
        rw [hc hr]
        rcases h with h | h
        · have : c.toNat = w.toNat := by rw [h]
          omega
        · exact h
      · rename_i hr
        rcases h with h | h
        · exact h
        · omega
  induction word generalizing s with
  | nil =>
    cases s with
    | nil => simp [AnyCase]
    | cons c r => simp [AnyCase]
  | cons w ws ih =>
    cases s with
    | nil => simp [AnyCase]
    | cons c r =>
      have ih' := ih r (fun x hx => hw x (List.mem_cons_of_mem _ hx))
      have hcw := hchar c w (hw w (by simp))
      simp only [List.map_cons, List.cons.injEq, hcw, ← ih']
      unfold AnyCase
      constructor
      · rintro ⟨hl, h⟩
        refine ⟨h 0 (by simp) (by simp), by simpa using hl, fun i hi hi' => ?_⟩
        exact h (i + 1) (by simpa using hi) (by simpa using hi')
      · rintro ⟨h0, hl, h⟩
        refine ⟨by simpa using hl, fun i hi hi' => ?_⟩
        cases i with
        | zero => exact h0
        | succ i => exact h i (by simpa using hi) (by simpa using hi')

/-- `inf`, `infinity`, `nan`, `nan(...)`. -/
inductive Word : Str → Prop
  | inf (w : Str) : w.map toLower = lit "inf" → Word w
  | infinity (w : Str) : w.map toLower = lit "infinity" → Word w
  | nan (w : Str) : w.map toLower = lit "nan" → Word w
  | nanSeq (w cs : Str) : w.map toLower = lit "nan" → cs.all isNanChar = true → Word (w ++ 40 :: (cs ++ [41]))

theorem take_len {w b : Str} {k : Nat} (h : w.length = k) : (w ++ b).take k = w ∧ (w ++ b).drop k = b := by
  subst h; simp

theorem wordLen_le (a b : Str) (h : Word a) : a.length ≤ wordLen (a ++ b) ∧ wordLen (a ++ b) ≠ 0 := by
  cases h with
  | inf _ h =>
    have hl : a.length = 3 := by have := congrArg List.length h; rw [List.length_map] at this; exact this
    have := (take_len (b := b) hl).1
    unfold wordLen
    split
    · omega
    · rw [this, if_pos h]; omega
  | infinity _ h =>
    have hl : a.length = 8 := by have := congrArg List.length h; rw [List.length_map] at this; exact this
    have := (take_len (b := b) hl).1
    unfold wordLen
    rw [this, if_pos h]; omega
  | nan _ h =>
    have hl : a.length = 3 := by have := congrArg List.length h; rw [List.length_map] at this; exact this
    have := (take_len (b := b) hl).1
    unfold wordLen
    split
    · omega
    · rw [this]
      split
      · omega
      · simp only
        split <;> omega
  | nanSeq w cs h hc =>
    have hl : w.length = 3 := by have := congrArg List.length h; rw [List.length_map] at this; exact this
    have htd := take_len (b := 40 :: (cs ++ [41]) ++ b) hl
    have h1 : ¬ ((w ++ (40 :: (cs ++ [41]) ++ b)).take 8).map toLower = lit "infinity" := by
      intro h8
      have := congrArg (List.take 3) h8
      rw [← List.map_take, List.take_take, show min 3 8 = 3 from rfl, htd.1, h] at this
      exact absurd this (by decide)
    have h2 : ¬ w.map toLower = lit "inf" := by rw [h]; decide
    have hsp := span_append (x := 41 :: b) hc (by intro c r hx; injection hx with hx _; rw [← hx]; decide)
    unfold wordLen
    rw [List.append_assoc, if_neg h1, htd.1, if_neg h2, if_pos h, htd.2]
    simp only [List.cons_append, List.head?_cons, List.tail_cons, List.append_assoc, List.nil_append, hsp.1, hsp.2, and_self, if_true,
      List.length_append, List.length_cons, List.length_nil]
    omega

theorem take_split (s : Str) (k : Nat) : s = s.take k ++ s.drop k := (List.take_append_drop k s).symm

theorem wordLen_mem (s : Str) (h0 : wordLen s ≠ 0) : ∃ a b, s = a ++ b ∧ Word a ∧ a.length = wordLen s := by
  have hlen : ∀ (k : Nat) (w : Str), (s.take k).map toLower = w → (s.take k).length = w.length := by
    intro k w h
    rw [← h, List.length_map]
  unfold wordLen at h0 ⊢
  split
  · rename_i h
    exact ⟨_, _, take_split s 8, .infinity _ h, hlen 8 _ h⟩
  · rename_i h8
    rw [if_neg h8] at h0
    split
    · rename_i h
      exact ⟨_, _, take_split s 3, .inf _ h, hlen 3 _ h⟩
    · rename_i h3
      rw [if_neg h3] at h0
      split
      · rename_i h
        have hl := hlen 3 _ h
        simp only
        split
        · rename_i hb
          generalize hr : s.drop 3 = r at *
          cases r with
          | nil => simp at hb
          | cons x r =>
            simp only [List.head?_cons, Option.some.injEq, List.tail_cons] at hb
            obtain ⟨rfl, hb⟩ := hb
            generalize hr2 : r.dropWhile isNanChar = r2 at *
            cases r2 with
            | nil => simp at hb
            | cons y r2 =>
              simp only [List.head?_cons, Option.some.injEq] at hb
              subst hb
              refine ⟨_, r2, ?_, .nanSeq (s.take 3) (r.takeWhile isNanChar) h List.all_takeWhile, ?_⟩
              · have h1 := take_split s 3
                have h2 := takeWhile_split isNanChar r
                rw [hr2] at h2
                rw [hr, h2] at h1
                simpa using h1
              · simp only [List.length_append, List.length_cons, List.length_nil, hl, List.tail_cons]
                have : (lit "nan").length = 3 := rfl
                omega
        · exact ⟨_, _, take_split s 3, .nan _ h, hl⟩
      · rename_i h
        rw [if_neg h] at h0
        exact absurd rfl h0

/-! ## Subject sequences -/

theorem isNanChar_iff (c : UInt8) : isNanChar c = true ↔ DecDigit c ∨ c = 95 ∨ (65 ≤ c.toNat ∧ c.toNat ≤ 90) ∨ (97 ≤ c.toNat ∧ c.toNat ≤ 122) := by
  simp [isNanChar, isDigit_dec, or_assoc]

theorem subject_iff (s : Str) : Subject s ↔ Num DecDigit 101 69 s ∨ (∃ x r, s = 48 :: x :: r ∧ toLower x = 120 ∧ Num HexDigit 112 80 r) ∨ Word s := by
  have h1 : ∀ w, AnyCase (lit "inf") w ↔ w.map toLower = lit "inf" := fun w => anyCase_iff _ w (by decide)
  have h2 : ∀ w, AnyCase (lit "infinity") w ↔ w.map toLower = lit "infinity" := fun w => anyCase_iff _ w (by decide)
  have h3 : ∀ w, AnyCase (lit "nan") w ↔ w.map toLower = lit "nan" := fun w => anyCase_iff _ w (by decide)
  constructor
  · intro h
    cases h with
    | dec m e hm he => exact .inl ⟨m, e, rfl, hm, he⟩
    | hex x m e hx hm he => exact .inr (.inl ⟨x, _, rfl, (toLower_x x).2 hx, m, e, rfl, hm, he⟩)
    | inf _ h => exact .inr (.inr (.inf _ ((h1 _).1 h)))
    | infinity _ h => exact .inr (.inr (.infinity _ ((h2 _).1 h)))
    | nan _ h => exact .inr (.inr (.nan _ ((h3 _).1 h)))
    | nanSeq w cs h hc => exact .inr (.inr (.nanSeq _ _ ((h3 _).1 h) ((all_iff isNanChar_iff).2 hc)))
  · rintro (⟨m, e, rfl, hm, he⟩ | ⟨x, r, rfl, hx, m, e, rfl, hm, he⟩ | h)
    · exact .dec m e hm he
    · exact .hex x m e ((toLower_x x).1 hx) hm he
    · cases h with
      | inf _ h => exact .inf _ ((h1 _).2 h)
      | infinity _ h => exact .infinity _ ((h2 _).2 h)
      | nan _ h => exact .nan _ ((h3 _).2 h)
      | nanSeq w cs h hc => exact .nanSeq _ _ ((h3 _).2 h) ((all_iff isNanChar_iff).1 hc)

theorem decLen_le (a b : Str) (h : Num DecDigit 101 69 a) : a.length ≤ numLen isDigit 101 (a ++ b) ∧ numLen isDigit 101 (a ++ b) ≠ 0 :=
  numLen_le isDigit_dec (by decide) toLower_e (by decide) (by decide) a b h

theorem hexLen_le (a b : Str) (h : Num HexDigit 112 80 a) : a.length ≤ numLen isHexDigit 112 (a ++ b) ∧ numLen isHexDigit 112 (a ++ b) ≠ 0 :=
  numLen_le isHexDigit_hex (by decide) toLower_p (by decide) (by decide) a b h

/-- How a word starts. -/
theorem Word.start {a : Str} (h : Word a) : ∃ c x r, a = c :: x :: r ∧ (toLower c = 105 ∨ toLower c = 110) := by
  have key : ∀ (w tail : Str) (c1 c2 : UInt8) (r' : Str), w.map toLower = c1 :: c2 :: r' → c1 = 105 ∨ c1 = 110 →
      ∃ c x r, w ++ tail = c :: x :: r ∧ (toLower c = 105 ∨ toLower c = 110) := by
    intro w tail c1 c2 r' h hc
    cases w with
    | nil => simp at h
    | cons c w =>
      cases w with
      | nil => simp at h
      | cons x w =>
        simp only [List.map_cons, List.cons.injEq] at h
        exact ⟨c, x, w ++ tail, rfl, h.1 ▸ hc⟩
  cases h with
  | inf _ h => have := key _ [] _ _ _ h (by decide); simpa using this
  | infinity _ h => have := key _ [] _ _ _ h (by decide); simpa using this
  | nan _ h => have := key _ [] _ _ _ h (by decide); simpa using this
  | nanSeq w cs h hc => exact key _ _ _ _ _ h (by decide)

theorem letter_facts (c : UInt8) : (toLower c = 105 ∨ toLower c = 110) → isDigit c = false ∧ c ≠ 46 ∧ c ≠ 48 ∧ c ≠ 43 ∧ c ≠ 45 ∧ isSpace c = false := by
  revert c; exact byte_all (by decide +kernel)

theorem digit_facts (c : UInt8) : (isDigit c = true ∨ c = 46) → c ≠ 43 ∧ c ≠ 45 ∧ isSpace c = false := by
  revert c; exact byte_all (by decide +kernel)

theorem x_facts (c : UInt8) : toLower c = 120 → isDigit c = false ∧ c ≠ 46 ∧ toLower c ≠ 101 := by
  revert c; exact byte_all (by decide +kernel)

theorem numLen_letter {c : UInt8} (r : Str) (h1 : isDigit c = false) (h2 : c ≠ 46) : numLen isDigit 101 (c :: r) = 0 := by
  have : mantLen isDigit (c :: r) = 0 := by simp [mantLen, h1, h2]
  simp [numLen, this]

theorem numLen_zerox {x : UInt8} (r : Str) (h : toLower x = 120) : numLen isDigit 101 (48 :: x :: r) = 1 := by
  obtain ⟨h1, h2, h3⟩ := x_facts x h
  have h48 : isDigit 48 = true := by decide
  have : mantLen isDigit (48 :: x :: r) = 1 := by simp [mantLen, h1, h2, h48]
  simp [numLen, this, expLen, h3]

theorem subjectLen_le (a b : Str) (h : Subject a) : a.length ≤ subjectLen (a ++ b) ∧ subjectLen (a ++ b) ≠ 0 := by
  rcases (subject_iff a).1 h with h | ⟨x, r, rfl, hx, h⟩ | h
  · have hl := decLen_le a b h
    generalize hs : a ++ b = s at *
    unfold subjectLen
    split
    · rename_i z x r
      split
      · rename_i hh
        obtain ⟨rfl, hx, hn⟩ := hh
        rw [numLen_zerox r hx] at hl
        omega
      · rw [if_pos hl.2]; exact hl
    · exact hl
  · have hl := hexLen_le r b h
    simp only [List.cons_append]
    have hs : subjectLen (48 :: x :: (r ++ b)) = 2 + numLen isHexDigit 112 (r ++ b) := by
      rw [subjectLen.eq_def]
      exact if_pos ⟨rfl, hx, hl.2⟩
    rw [hs]
    simp only [List.length_cons]
    omega
  · have hl := wordLen_le a b h
    obtain ⟨c, x, r, rfl, hc⟩ := h.start
    have hf := letter_facts c hc
    simp only [List.cons_append, subjectLen] at hl ⊢
    rw [if_neg (fun hh => hf.2.2.1 hh.1), numLen_letter _ hf.1 hf.2.1, if_neg (by omega)]
    exact hl

theorem subjectLen_mem (s : Str) (h0 : subjectLen s ≠ 0) : ∃ a b, s = a ++ b ∧ Subject a ∧ a.length = subjectLen s := by
  have hdec : ∀ s, numLen isDigit 101 s ≠ 0 → ∃ a b, s = a ++ b ∧ Subject a ∧ a.length = numLen isDigit 101 s := by
    intro s h
    obtain ⟨a, b, h1, h2, h3⟩ := numLen_mem isDigit_dec toLower_e s h
    exact ⟨a, b, h1, (subject_iff a).2 (.inl h2), h3⟩
  unfold subjectLen at h0 ⊢
  split
  · rename_i z x r
    simp only at h0
    split
    · rename_i hh
      obtain ⟨rfl, hx, hn⟩ := hh
      obtain ⟨a, b, h1, h2, h3⟩ := numLen_mem isHexDigit_hex toLower_p r hn
      refine ⟨48 :: x :: a, b, by rw [h1]; rfl, (subject_iff _).2 (.inr (.inl ⟨x, a, rfl, hx, h2⟩)), ?_⟩
      simp only [List.length_cons]; omega
    · rename_i hh
      rw [if_neg hh] at h0
      split
      · rename_i hn; exact hdec _ hn
      · rename_i hn
        rw [if_neg hn] at h0
        obtain ⟨a, b, h1, h2, h3⟩ := wordLen_mem _ h0
        exact ⟨a, b, h1, (subject_iff a).2 (.inr (.inr h2)), h3⟩
  · rename_i hx
    split at h0
    · rename_i z x r; exact absurd rfl (hx z x r)
    · exact hdec _ h0

theorem Subject.start {a : Str} (h : Subject a) : ∃ c r, a = c :: r ∧ c ≠ 43 ∧ c ≠ 45 ∧ isSpace c = false := by
  rcases (subject_iff a).1 h with ⟨m, e, rfl, hm, he⟩ | ⟨x, r, rfl, hx, h⟩ | h
  · cases hm with
    | whole _ hne hall =>
      obtain ⟨c, r, rfl⟩ := List.exists_cons_of_ne_nil hne
      exact ⟨c, _, rfl, digit_facts c (.inl ((isDigit_dec c).2 (hall c (by simp))))⟩
    | point i d hne hi hd =>
      cases i with
      | nil => exact ⟨46, _, rfl, digit_facts 46 (.inr rfl)⟩
      | cons c r => exact ⟨c, _, rfl, digit_facts c (.inl ((isDigit_dec c).2 (hi c (by simp))))⟩
  · exact ⟨48, _, rfl, by decide⟩
  · obtain ⟨c, x, r, rfl, hc⟩ := h.start
    exact ⟨c, _, rfl, (letter_facts c hc).2.2.2.1, (letter_facts c hc).2.2.2.2.1, (letter_facts c hc).2.2.2.2.2⟩

/-! ## `strtod` -/

theorem strtodLen_le (a b : Str) (h : Strtod a) : a.length ≤ strtodLen (a ++ b) ∧ strtodLen (a ++ b) ≠ 0 := by
  obtain ⟨ws, sg, s, hw, hs, hb⟩ := h
  obtain ⟨hl, hz⟩ := subjectLen_le s b hb
  obtain ⟨c, r, hsr, h43, h45, hsp⟩ := hb.start
  have hn : NotHead isSpace (sg ++ (s ++ b)) := by
    rw [hsr]
    rcases hs with rfl | rfl | rfl <;> (intro x y hx; injection hx with hx _; rw [← hx]; first | exact hsp | decide)
  have hspan := span_append ((all_iff isSpace_blank).2 hw) hn
  have hassoc : ws ++ sg ++ s ++ b = ws ++ (sg ++ (s ++ b)) := by simp
  have hsgn : (if (sg ++ (s ++ b)).head? = some 43 ∨ (sg ++ (s ++ b)).head? = some 45 then 1 else 0) = sg.length := by
    rcases hs with rfl | rfl | rfl
    · rw [hsr]; simp [h43, h45]
    · simp
    · simp
  rw [hassoc]
  simp only [strtodLen, hspan.1, List.drop_left, hsgn]
  rw [if_neg hz]
  simp only [List.length_append]
  omega

theorem strtodLen_mem (s : Str) (h0 : strtodLen s ≠ 0) : ∃ a b, s = a ++ b ∧ Strtod a ∧ a.length = strtodLen s := by
  have hsplit := takeWhile_split isSpace s
  have hdrop : s.drop (s.takeWhile isSpace).length = s.dropWhile isSpace := by
    generalize s.takeWhile isSpace = w at *
    generalize s.dropWhile isSpace = r at *
    rw [hsplit, List.drop_left]
  simp only [strtodLen, hdrop] at h0 ⊢
  generalize hr : s.dropWhile isSpace = r at *
  have key : ∀ sg r', r = sg ++ r' → (sg = [] ∨ sg = [43] ∨ sg = [45]) → (if r.head? = some 43 ∨ r.head? = some 45 then 1 else 0) = sg.length →
      ∃ a b, s = a ++ b ∧ Strtod a ∧ a.length = if subjectLen (r.drop (if r.head? = some 43 ∨ r.head? = some 45 then 1 else 0)) = 0 then 0 else
        (s.takeWhile isSpace).length + (if r.head? = some 43 ∨ r.head? = some 45 then 1 else 0) + subjectLen (r.drop (if r.head? = some 43 ∨ r.head? = some 45 then 1 else 0)) := by
    intro sg r' hrr hsg hlen
    rw [hlen] at h0 ⊢
    rw [hrr, List.drop_left] at h0 ⊢
    split at h0
    · exact absurd rfl h0
    · rename_i hz
      obtain ⟨a, b, h1, h2, h3⟩ := subjectLen_mem r' hz
      refine ⟨s.takeWhile isSpace ++ sg ++ a, b, ?_, .mk _ _ _ (takeWhile_all isSpace_blank s) hsg h2, ?_⟩
      · conv => lhs; rw [hsplit]
        rw [hrr, h1]
        simp
      · rw [if_neg hz]
        simp only [List.length_append]
        omega
  cases r with
  | nil => exact key [] [] rfl (.inl rfl) (by simp)
  | cons x r =>
    by_cases h1 : x = 43
    · subst h1; exact key [43] r rfl (.inr (.inl rfl)) (by simp)
    · by_cases h2 : x = 45
      · subst h2; exact key [45] r rfl (.inr (.inr rfl)) (by simp)
      · exact key [] (x :: r) rfl (.inl rfl) (by simp [h1, h2])

/-- `strtodLen` is the length of the longest prefix of the expected form. -/
theorem strtodLen_longest (s : Str) : Longest Strtod s (strtodLen s) := by
  refine ⟨?_, ?_⟩
  · rintro a b rfl h
    exact (strtodLen_le a b h).1
  · by_cases h0 : strtodLen s = 0
    · left
      refine ⟨h0, ?_⟩
      rintro a b rfl h
      exact (strtodLen_le a b h).2 h0
    · exact .inr (strtodLen_mem s h0)

end Verif.Text
