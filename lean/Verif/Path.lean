import Verif.Core
import Verif.Decimal

/-!
# Paths

Model of /repo/include/persistence/detail/path.hpp and of the part of `rapidjson::Pointer` that
deserialize_pointer.hpp:43-44 uses (RapidJSON contract, include/rapidjson/pointer.h).
-/

namespace Verif.Core

/-! ## `Path::str` -/

/-- One round of the loop in `Path::str` (path.hpp:25-42): `max_len` is
`std::numeric_limits<std::size_t>::digits10 = 19`; a longer number is left out. -/
def segText : Seg → Str
  | .named name => 47 :: name
  | .index i => 47 :: (if (decimal i).length ≤ 19 then decimal i else [])

/-- The loop of `Path::str` over segments in the order from the root. -/
def segsText (segs : List Seg) : Str := (segs.map segText).flatten

/-- `Path::str` (path.hpp:17-45) on `Segments` as collected by `segments()`
(detail/output_context.hpp:42-51, detail/deserialize_context.hpp:49-58): innermost segment first. -/
def pathStr (segs : List Seg) : Str := if segs = [] then [47] else segsText segs.reverse

/-! ## `rapidjson::Pointer` -/

/-- Tokens of the rest of a pointer text after a `/` (`Pointer::Parse`): `~0` is `~`, `~1` is `/`,
another `~` is an error. -/
def scanTokens : Str → Option (List Str)
  | [] => some [[]]
  | c :: rest =>
      if c = 47 then (scanTokens rest).map ([] :: ·)
      else if c = 126 then
        match rest with
        | [] => none
        | d :: rest' =>
            if d = 48 then (scanTokens rest').map (cons1 126)
            else if d = 49 then (scanTokens rest').map (cons1 47)
            else none
      else (scanTokens rest).map (cons1 c)
where
  /-- Prefix the first token by a character. -/
  cons1 (c : UInt8) : List Str → List Str
    | [] => [[c]]
    | t :: ts => (c :: t) :: ts

/-- `Pointer::Parse`: `none` is an invalid pointer, on which `Get` asserts. -/
def pointerTokens (env : Env) : Str → Option (List Str)
  | [] => some []
  | c :: rest =>
      if c = 47 then scanTokens rest
      else if c = 35 then env.fragment rest
      else none

/-- Evaluation of a number token in 32-bit arithmetic with the overflow test of `Pointer::Parse`. -/
def indexLoop : Nat → Str → Option Nat
  | n, [] => some n
  | n, c :: rest =>
      let m := (n * 10 + (c.toNat - 48)) % 2 ^ 32
      if m < n then none else indexLoop m rest

/-- The array index denoted by a token: only digits, no leading zero; `2^32-1` is reserved for
"no index". -/
def tokenIndex (t : Str) : Option Nat :=
  if t = [] then none
  else if t.all isDigit = false then none
  else if t.length > 1 ∧ t.head? = some 48 then none
  else match indexLoop 0 t with
    | none => none
    | some n => if n = 2 ^ 32 - 1 then none else some n

/-- `Pointer::Get`: the place of the addressed node, as the child positions from the root; `none` is a
null pointer. -/
def pointerGet : Json → List Str → Option (List Nat)
  | _, [] => some []
  | .obj ms, t :: ts =>
      match findMember t ms with
      | none => none
      | some (i, j) => (pointerGet j ts).map (i :: ·)
  | .arr xs, t :: ts =>
      match tokenIndex t with
      | none => none
      | some n =>
          match xs[n]? with
          | none => none
          | some j => (pointerGet j ts).map (n :: ·)
  | _, _ :: _ => none

/-! ## Lemmas -/

theorem indexLoop_append (s : Str) (c : UInt8) (n : Nat) :
    indexLoop n (s ++ [c]) = (indexLoop n s).bind fun k => indexLoop k [c] := by
  induction s generalizing n with
  | nil => simp [indexLoop]
  | cons a s ih =>
    simp only [List.cons_append, indexLoop]
    split
    · rfl
    · rw [ih]; simp [indexLoop]

theorem indexLoop_decimal (n : Nat) (h : n < 2 ^ 32) : indexLoop 0 (decimal n) = some n := by
  induction n using Nat.strongRecOn with
  | ind n ih =>
    by_cases h10 : n < 10
    · rw [decimal_lt n h10]
      have hn : n % 4294967296 = n := Nat.mod_eq_of_lt (by omega)
      simp [indexLoop, digitChar_toNat n h10, hn]
    · rw [decimal_ge n (by omega), indexLoop_append, ih (n / 10) (by omega) (by omega)]
      have hd : digitChar n = digitChar (n % 10) := by simp [digitChar]
      have hm : (n / 10 * 10 + n % 10) % 4294967296 = n := by omega
      simp only [Option.bind_some, indexLoop, hd, digitChar_toNat (n % 10) (by omega), Nat.add_sub_cancel_left,
        Nat.reducePow, hm]
      rw [if_neg (by omega)]

theorem decimal_head (n : Nat) (h : 10 ≤ n) : (decimal n).head? ≠ some 48 := by
  induction n using Nat.strongRecOn with
  | ind n ih =>
    rw [decimal_ge n h]
    by_cases h2 : n / 10 < 10
    · rw [decimal_lt _ h2]
      simp only [List.cons_append, List.head?_cons, ne_eq, Option.some.injEq]
      intro hc
      have := digitChar_toNat (n / 10) h2
      rw [hc] at this
      have h48 : (48 : UInt8).toNat = 48 := rfl
      omega
    · have := ih (n / 10) (by omega) (by omega)
      have hne := decimal_ne_nil (n / 10)
      cases hd : decimal (n / 10) with
      | nil => exact absurd hd hne
      | cons a b => rw [hd] at this; simpa using this

theorem tokenIndex_decimal (n : Nat) (h : n < 2 ^ 32 - 1) : tokenIndex (decimal n) = some n := by
  unfold tokenIndex
  rw [if_neg (decimal_ne_nil n), if_neg (by simp [decimal_digits]), if_neg, indexLoop_decimal n (by omega)]
  · simp only
    rw [if_neg (by omega)]
  · rintro ⟨h1, h2⟩
    by_cases h10 : n < 10
    · rw [decimal_lt n h10] at h1; simp at h1
    · exact decimal_head n (by omega) h2

theorem decimal_length_le (k n : Nat) (h : n < 10 ^ (k + 1)) : (decimal n).length ≤ k + 1 := by
  induction k generalizing n with
  | zero => rw [decimal_lt n (by omega)]; simp
  | succ k ih =>
    by_cases h10 : n < 10
    · rw [decimal_lt n h10]; simp
    · rw [decimal_ge n (by omega)]
      have := ih (n / 10) (by rw [Nat.pow_succ] at h; omega)
      simp only [List.length_append, List.length_cons, List.length_nil]
      omega

/-- A character that needs no escaping in a JSON pointer. -/
def plain (s : Str) : Bool := s.all fun c => c ≠ 47 && c ≠ 126

theorem plain_cons (c : UInt8) (s : Str) : plain (c :: s) = true ↔ (c ≠ 47 ∧ c ≠ 126) ∧ plain s = true := by
  simp [plain]

theorem plain_digits (s : Str) (h : s.all isDigit = true) : plain s = true := by
  induction s with
  | nil => rfl
  | cons c s ih =>
    simp only [List.all_cons, Bool.and_eq_true] at h
    rw [plain_cons]
    refine ⟨?_, ih h.2⟩
    have := h.1
    simp only [isDigit, Bool.and_eq_true, decide_eq_true_eq] at this
    constructor
    · rintro rfl; revert this; decide
    · rintro rfl; revert this; decide

theorem scanTokens_plain (s : Str) (hs : plain s = true) (rest : Str) :
    scanTokens (s ++ rest) = (scanTokens rest).map fun ts => match ts with
      | [] => [s]
      | t :: ts => (s ++ t) :: ts := by
  induction s with
  | nil =>
    simp only [List.nil_append]
    cases h : scanTokens rest with
    | none => rfl
    | some ts =>
      cases ts with
      | nil =>
        exfalso
        clear hs
        revert h
        generalize hn : rest.length = n
        intro h
        induction n using Nat.strongRecOn generalizing rest with
        | ind n ih =>
          cases rest with
          | nil => simp [scanTokens] at h
          | cons c rest =>
            unfold scanTokens at h
            split at h
            · cases hh : scanTokens rest <;> rw [hh] at h <;> simp at h
            · have c1 : ∀ (c : UInt8) (o : Option (List Str)), o.map (scanTokens.cons1 c) = some [] → False := by
                intro c o ho
                cases o with
                | none => simp at ho
                | some l => cases l <;> simp [scanTokens.cons1] at ho
              split at h
              · split at h
                · simp at h
                · split at h
                  · exact c1 _ _ h
                  · split at h
                    · exact c1 _ _ h
                    · simp at h
              · exact c1 _ _ h
      | cons t ts => rfl
  | cons c s ih =>
    rw [plain_cons] at hs
    rw [List.cons_append, scanTokens.eq_def]
    simp only
    rw [if_neg hs.1.1, if_neg hs.1.2, ih hs.2]
    cases scanTokens rest with
    | none => rfl
    | some ts => cases ts <;> rfl

theorem scanTokens_slash (rest : Str) : scanTokens (47 :: rest) = (scanTokens rest).map ([] :: ·) := by
  rw [scanTokens.eq_def]; simp

/-- The token that a segment stands for. -/
def segToken : Seg → Str
  | .named name => name
  | .index i => decimal i

/-- The segment is written without loss: a name without `/` and `~`, an index below `2^32-1`. -/
def Seg.Plain : Seg → Prop
  | .named name => plain name = true
  | .index i => i < 2 ^ 32 - 1

theorem segText_plain (s : Seg) (h : s.Plain) : segText s = 47 :: segToken s ∧ plain (segToken s) = true := by
  cases s with
  | named name => exact ⟨rfl, h⟩
  | index i =>
    refine ⟨?_, plain_digits _ (decimal_digits i)⟩
    simp only [segText, segToken]
    have h' : i < 2 ^ 32 - 1 := h
    rw [if_pos]
    have := decimal_length_le 18 i (by omega)
    omega

theorem scanTokens_segsText (segs : List Seg) (h : ∀ s ∈ segs, s.Plain) (pre : Str) (hp : plain pre = true) :
    scanTokens (pre ++ segsText segs) = some (pre :: segs.map segToken) := by
  induction segs generalizing pre with
  | nil => rw [scanTokens_plain pre hp]; simp [segsText, scanTokens]
  | cons s segs ih =>
    obtain ⟨h1, h2⟩ := segText_plain s (h s (by simp))
    have := ih (fun s hs => h s (by simp [hs])) (segToken s) h2
    rw [scanTokens_plain pre hp]
    simp only [segsText, List.map_cons, List.flatten_cons, h1, List.cons_append] at this ⊢
    rw [scanTokens_slash, this]
    simp

/-- The text of a non-empty path parses back into its segments. -/
theorem pointerTokens_pathStr (env : Env) (segs : List Seg) (hne : segs ≠ []) (h : ∀ s ∈ segs, s.Plain) :
    pointerTokens env (pathStr segs) = some (segs.reverse.map segToken) := by
  unfold pathStr
  rw [if_neg hne]
  cases hr : segs.reverse with
  | nil => simp at hr; exact absurd hr hne
  | cons s rest =>
    have hall : ∀ s ∈ segs.reverse, s.Plain := fun s hs => h s (by simpa using hs)
    rw [hr] at hall
    obtain ⟨h1, h2⟩ := segText_plain s (hall s (by simp))
    have := scanTokens_segsText rest (fun s hs => hall s (by simp [hs])) (segToken s) h2
    simp only [segsText, List.map_cons, List.flatten_cons, h1, List.cons_append] at this ⊢
    simp only [pointerTokens, if_true]
    exact this

end Verif.Core
