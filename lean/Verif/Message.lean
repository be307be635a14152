import Verif.FirstBad
import Verif.ReadTyped

/-!
# The texts of deserialization errors

`JsonDeserializationError` is made from a reason and a path (exception.hpp:27-35). `Err.text` is the reason that is
passed at the place where `Err` is raised.
-/

namespace Verif.Core
open Verif.Numeric Verif.EnumConv

/-- How the messages of the four integer deserializers name their type (deserialize_fundamental.hpp:53, 83, 113, 143). -/
def intName (t : IntTy) : Str :=
  match t.width, t.signed with
  | .w64, true => lit "64-bit integer"
  | .w64, false => lit "unsigned 64-bit integer"
  | _, true => lit "integer"
  | _, false => lit "unsigned integer"

/-- The first argument of `JsonDeserializationError`: deserialize_fundamental.hpp:18, 29, 53, 83, 113, 143, 171, 194,
285; deserialize_check.hpp:19, 35, 51, 67; deserialize_bytes.hpp:24; deserialize_datetime.hpp:24;
deserialize_date.hpp:28; deserialize_enum.hpp:53, 81; deserialize_object.hpp:61; deserialize_variant.hpp:21.
`std::to_string` on sizes is `decimal`. -/
def Err.text : Err → Str
  | .expectedNull => lit "wrong JSON data type; expected: null"
  | .expectedBool => lit "wrong JSON data type; expected: boolean"
  | .expectedInt t => lit "wrong JSON data type; expected: " ++ intName t
  | .expectedNumber => lit "wrong JSON data type; expected: number"
  | .expectedString => lit "wrong JSON data type; expected: string"
  | .expectedArray => lit "wrong JSON data type; expected: array"
  | .expectedObject => lit "wrong JSON data type; expected: object"
  | .outOfRange true => lit "signed integer out of range"
  | .outOfRange false => lit "unsigned integer out of range"
  | .badBase64 => lit "invalid Base64-encoding for sequence of bytes"
  | .badDatetime s => lit "invalid ISO-8601 date-time; expected: YYYY-MM-DDTHH:MM:SSZ, got: " ++ s
  | .badDate s => lit "invalid ISO-8601 date; expected: YYYY-MM-DD, got: " ++ s
  | .unknownEnumerator s => lit "unrecognized enumeration string value; got: " ++ s
  | .sizeMismatch n m => lit "mismatch in number of array elements; expected: " ++ decimal n ++ lit ", got: " ++ decimal m
  | .missing name => lit "missing required property: " ++ name
  | .noAlternative => lit "unable to match either of the variant types"

/-- The argument of `std::runtime_error` (exception.hpp:30). -/
def errorText (path : Str) (e : Err) : Str := e.text ++ lit " at " ++ path

/-- `what()`: the characters of the text up to the first NUL, `std::runtime_error` gives no length. -/
def what (path : Str) (e : Err) : Str := cstr (errorText path e)

/-! ## Characters of paths -/

theorem decimal_mem {n : Nat} {c : UInt8} (h : c ∈ decimal n) : 48 ≤ c.toNat ∧ c.toNat ≤ 57 := by
  have := List.all_eq_true.1 (decimal_digits n) c h
  simpa [isDigit] using this

theorem decimal_no_nul (n : Nat) : (0 : UInt8) ∉ decimal n := fun h => by
  have := (decimal_mem h).1
  simp at this

theorem decimal_no_slash (n : Nat) : (47 : UInt8) ∉ decimal n := fun h => by
  have := (decimal_mem h).1
  simp at this

theorem pathStr_slash (segs : List Seg) : ∃ rest, pathStr segs = 47 :: rest := by
  unfold pathStr
  split
  · exact ⟨[], rfl⟩
  · rename_i h
    cases hr : segs.reverse with
    | nil => exact absurd (List.reverse_eq_nil_iff.1 hr) h
    | cons s l => cases s <;> exact ⟨_, rfl⟩

/-- No segment has a NUL character in its name. -/
def NoNul (segs : List Seg) : Prop := ∀ n, Seg.named n ∈ segs → (0 : UInt8) ∉ n

theorem pathStr_no_nul (segs : List Seg) (h : NoNul segs) : (0 : UInt8) ∉ pathStr segs := by
  unfold pathStr
  split
  · decide
  · intro h0
    simp only [segsText, List.mem_flatten, List.mem_map, List.mem_reverse] at h0
    obtain ⟨_, ⟨s, hs, rfl⟩, h0⟩ := h0
    cases s with
    | named n =>
      rcases List.mem_cons.1 h0 with h0 | h0
      · cases h0
      · exact h n hs h0
    | index i =>
      rcases List.mem_cons.1 h0 with h0 | h0
      · cases h0
      · split at h0
        · exact decimal_no_nul i h0
        · cases h0

theorem NoNul.cons_index {segs : List Seg} (h : NoNul segs) (i : Nat) : NoNul (.index i :: segs) := by
  intro n hn
  rcases List.mem_cons.1 hn with hn | hn
  · cases hn
  · exact h n hn

theorem NoNul.cons_name {segs : List Seg} (h : NoNul segs) (key : Str) : NoNul (Seg.name (cstr key) :: segs) := by
  intro n hn
  rcases List.mem_cons.1 hn with hn | hn
  · unfold Seg.name at hn
    split at hn <;> cases hn
    exact cstr_nonul key
  · exact h n hn

theorem FirstBad.noNul {env : Env} {t : Ty} {j : Json} {rel : List Seg} {e : Err} (h : FirstBad env t j rel e) : NoNul rel := by
  induction h with
  | vec _ _ _ _ _ _ _ _ ih => exact ih.cons_index _
  | set _ _ _ _ _ _ _ _ ih => exact ih.cons_index _
  | dict _ _ _ _ _ _ _ _ ih => exact ih.cons_index _
  | arr _ _ _ _ _ _ _ _ _ _ ih => exact ih.cons_index _
  | tuple _ _ _ _ _ _ _ _ _ _ _ _ ih => exact ih.cons_index _
  | map _ _ _ _ _ _ _ _ _ _ ih => exact ih.cons_name _
  | member _ _ _ _ _ _ _ _ _ _ _ _ _ ih => exact ih.cons_name _
  | uptr _ _ _ _ _ ih => exact ih
  | _ => intro n hn; cases hn

/-! ## The node at a position -/

/-- The type of the elements of a type that is read from an array, by position. -/
def Ty.itemTy : Ty → Nat → Option Ty
  | .vec t, _ | .set t, _ | .arr _ t, _ => some t
  | .dict t, _ => some (.tuple [.prim .str, t])
  | .tuple ts, i => ts[i]?
  | _, _ => none

/-- `Located env t j rel t' j'`: reading `j` as `t`, the node `j'` is at the position `rel` and is read as `t'`. Indices
count elements of arrays, names are those of members, cut at NUL. -/
inductive Located (env : Env) : Ty → Json → List Seg → Ty → Json → Prop
  | here (t : Ty) (j : Json) : Located env t j [] t j
  | item (t te : Ty) (js : List Json) (i : Nat) (j : Json) (rel : List Seg) (t' : Ty) (j' : Json) : t.itemTy i = some te → js[i]? = some j →
      Located env te j rel t' j' → Located env t (.arr js) (.index i :: rel) t' j'
  | entry (o : Bool) (t : Ty) (ms : List (Str × Json)) (p : Str × Json) (rel : List Seg) (t' : Ty) (j' : Json) : p ∈ ms → Located env t p.2 rel t' j' →
      Located env (.map o t) (.obj ms) (Seg.name (cstr p.1) :: rel) t' j'
  | member (c : Nat) (m : Member) (ms : List (Str × Json)) (j : Json) (rel : List Seg) (t' : Ty) (j' : Json) : m ∈ env.members c → (m.name, j) ∈ ms →
      Located env m.ty j rel t' j' → Located env (.cls c) (.obj ms) (Seg.name (cstr m.name) :: rel) t' j'
  | uptr (t : Ty) (j : Json) (rel : List Seg) (t' : Ty) (j' : Json) : Located env t j rel t' j' → Located env (.uptr t) j rel t' j'

theorem FirstBad.located {env : Env} {t : Ty} {j : Json} {rel : List Seg} {e : Err} (h : FirstBad env t j rel e) :
    ∃ t' j', Located env t j rel t' j' ∧ FirstBad env t' j' [] e ∧ ∀ t1, t' ≠ .uptr t1 := by
  have at' : ∀ (pre : List Json) (j : Json) (post : List Json), (pre ++ j :: post)[pre.length]? = some j := by simp
  have name : ∀ {ms : List (Str × Json)} {k : Str} {i : Nat} {j : Json}, findMember k ms = some (i, j) → (k, j) ∈ ms := findMember_mem
  induction h with
  | leaf p j e h => exact ⟨_, j, .here _ j, .leaf p j e h, by simp⟩
  | array t j hw h => exact ⟨t, j, .here _ j, .array t j hw h, fun t1 he => by subst he; cases hw⟩
  | object t j hw h => exact ⟨t, j, .here _ j, .object t j hw h, fun t1 he => by subst he; cases hw⟩
  | arrLength n t js h => exact ⟨_, _, .here _ _, .arrLength n t js h, by simp⟩
  | tupleLength ts js h => exact ⟨_, _, .here _ _, .tupleLength ts js h, by simp⟩
  | variant ts j h => exact ⟨_, _, .here _ _, .variant ts j h, by simp⟩
  | missing c ms pre m post h1 h2 h3 h4 => exact ⟨_, _, .here _ _, .missing c ms pre m post h1 h2 h3 h4, by simp⟩
  | vec _ pre j post _ _ _ _ ih => obtain ⟨t', j', h1, h2⟩ := ih; exact ⟨t', j', .item _ _ _ _ j _ _ j' rfl (at' ..) h1, h2⟩
  | set _ pre j post _ _ _ _ ih => obtain ⟨t', j', h1, h2⟩ := ih; exact ⟨t', j', .item _ _ _ _ j _ _ j' rfl (at' ..) h1, h2⟩
  | dict _ pre j post _ _ _ _ ih => obtain ⟨t', j', h1, h2⟩ := ih; exact ⟨t', j', .item _ _ _ _ j _ _ j' rfl (at' ..) h1, h2⟩
  | arr _ _ pre j post _ _ _ _ _ ih => obtain ⟨t', j', h1, h2⟩ := ih; exact ⟨t', j', .item _ _ _ _ j _ _ j' rfl (at' ..) h1, h2⟩
  | tuple _ _ _ _ j _ _ _ ht he _ _ ih => obtain ⟨t', j', h1, h2⟩ := ih; exact ⟨t', j', .item _ _ _ _ j _ _ j' ht he h1, h2⟩
  | map _ _ pre key j post _ _ _ _ ih => obtain ⟨t', j', h1, h2⟩ := ih; exact ⟨t', j', .entry _ _ _ (key, j) _ _ j' (by simp) h1, h2⟩
  | member _ _ _ m _ i j _ _ hm _ hf _ ih =>
    obtain ⟨t', j', h1, h2⟩ := ih
    exact ⟨t', j', .member _ m _ j _ _ j' (by rw [hm]; simp) (name hf) h1, h2⟩
  | uptr _ _ _ _ _ ih => obtain ⟨t', j', h1, h2⟩ := ih; exact ⟨t', j', .uptr _ _ _ _ _ h1, h2⟩

end Verif.Core
