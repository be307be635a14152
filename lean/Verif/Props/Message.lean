import Verif.Message
import Verif.Props.Read
import Verif.Props.ReadShared
import Verif.Props.ReadExact
import Verif.Props.Base64
import Verif.Props.EnumConv
import Verif.Props.DateTime

/-!
# C81: which error is thrown, and what its text says
-/

namespace Verif.Props
open Verif.Core Verif.Numeric Verif.Demo

/-! ## The first failure is thrown -/

/-- **C81, which error.** The throwing variant throws exactly the first failure: reading arrays and maps by position
and classes in the order of their members, everything before the position that is thrown can be read, and the
position has the defect that is thrown. For every document but those at which a clock overflows. -/
theorem C81_first_failure (env : Env) (hu : env.Unshared) (t : Ty) (ht : t.unshared = true) (root : Json) (hc : Calm env root) (next : Nat)
    (path : Str) (e : Err) :
    deserializeThrow env t root next = .threw path e ↔ ∃ rel, FirstBad env t root rel e ∧ path = pathStr rel.reverse := by
  rw [deserializeThrow_pd env hu t ht]
  constructor
  · intro h
    cases hp : pd env root true t (env.fresh t) [] with
    | ub => rw [hp] at h; cases h
    | done ok w => rw [hp] at h; cases h
    | threw s e' =>
      rw [hp] at h
      cases h
      obtain ⟨rel, h1, h2⟩ := threw_first env hu root t ht hc _ _ _ _ hp
      exact ⟨rel, h1, by rw [h2, List.append_nil]⟩
  · rintro ⟨rel, h1, rfl⟩
    rw [first_threw env hu t root rel e h1 ht hc (env.fresh t) [], List.append_nil]

/-- `{"items": [{"id": 1}, {"id": "two"}, {}]}` -/
def severalBad : Json :=
  .obj [(lit "items", .arr [.obj [(lit "id", .num (.int 1))], .obj [(lit "id", .str (lit "two"))], .obj []])]

theorem severalBad_calm : Calm plainEnv severalBad := by
  simp only [severalBad, Calm, CalmAll, CalmFields, CalmStr, and_true, true_and, ne_eq]
  decide +kernel

example : ∃ rel, FirstBad plainEnv (.map true (.vec (.cls 1))) severalBad rel (.expectedInt ⟨.w32, true⟩) ∧
    lit "/items/1/id" = pathStr rel.reverse :=
  (C81_first_failure plainEnv plainEnv_unshared (.map true (.vec (.cls 1))) rfl severalBad severalBad_calm 0 _ _).1 rfl

/-- **C81, which error, for all types** on documents without references. -/
theorem C81_shared_first_failure (env : Env) (t : Ty) (root : Json) (hn : root.noRef) (hc : Calm env root) (next : Nat) (path : Str) (e : Err) :
    deserializeThrow env t root next = .threw path e ↔ ∃ rel, FirstBad env.lower t.lower root rel e ∧ path = pathStr rel.reverse :=
  ((throw_same env t root hn next).1 path e).trans
    (C81_first_failure env.lower (lower_env_unshared env) t.lower (lower_unshared t) root ((calm_lower env root).2 hc) next path e)

example : ∃ rel, FirstBad Demo.env.lower (.cls 2) badBoth rel (.expectedInt ⟨.w32, true⟩) ∧ lit "/right/id" = pathStr rel.reverse :=
  (C81_shared_first_failure Demo.env (.cls 2) badBoth badBoth_noRef badBoth_calm 0 _ _).1 rfl

/-- **C81, there is only one.** -/
theorem C81_one_first_failure (env : Env) (hu : env.Unshared) (t : Ty) (ht : t.unshared = true) (root : Json) (hc : Calm env root)
    (rel1 rel2 : List Seg) (e1 e2 : Err) (h1 : FirstBad env t root rel1 e1) (h2 : FirstBad env t root rel2 e2) : rel1 = rel2 ∧ e1 = e2 := by
  have a := first_threw env hu t root rel1 e1 h1 ht hc .absent []
  rw [first_threw env hu t root rel2 e2 h2 ht hc .absent []] at a
  simp only [List.append_nil, PRes.threw.injEq] at a
  exact ⟨by rw [← List.reverse_inj]; exact a.1.symm, a.2.symm⟩

theorem severalBad_first : FirstBad plainEnv (.map true (.vec (.cls 1))) severalBad [.named (lit "items"), .index 1, .named (lit "id")]
    (.expectedInt ⟨.w32, true⟩) :=
  .map true _ [] (lit "items") _ [] _ _ (by simp)
    (.vec (.cls 1) [.obj [(lit "id", .num (.int 1))]] _ [.obj []] _ _
      (by
        intro x hx h
        simp only [List.mem_singleton] at hx
        subst hx
        have := (C33_verdict plainEnv plainEnv_unshared (.cls 1) rfl (.obj [(lit "id", .num (.int 1))])
          (by simp [Calm, CalmFields]) 0).1.2 h
        obtain ⟨p, e, h⟩ := this
        cases h)
      (.member 1 _ [] ⟨lit "id", .required, tInt⟩ _ 0 (.str (lit "two")) [] _ rfl (by simp) rfl
        (.leaf _ _ _ (.int ⟨.w32, true⟩ _ (by simp)))))

example (rel : List Seg) (e : Err) (h : FirstBad plainEnv (.map true (.vec (.cls 1))) severalBad rel e) :
    rel = [.named (lit "items"), .index 1, .named (lit "id")] ∧ e = .expectedInt ⟨.w32, true⟩ :=
  C81_one_first_failure plainEnv plainEnv_unshared _ rfl severalBad severalBad_calm _ _ _ _ h severalBad_first

/-! ## What the text says is true -/

/-- The names of the kinds of JSON values. -/
def kindName : Json → Str
  | .null => lit "null"
  | .bool _ => lit "boolean"
  | .num _ => lit "number"
  | .str _ => lit "string"
  | .arr _ => lit "array"
  | .obj _ => lit "object"

/-- The kind of JSON values that a type is read from. -/
def wants : Ty → Option Str
  | .prim .null => some (lit "null")
  | .prim .bool => some (lit "boolean")
  | .prim (.flt _) => some (lit "number")
  | .prim .str | .prim .bytes | .prim .time | .prim .date | .prim (.enumStr _) => some (lit "string")
  | .vec _ | .set _ | .arr _ _ | .tuple _ | .dict _ => some (lit "array")
  | .map _ _ | .cls _ => some (lit "object")
  | _ => none

/-- Integer types, and enumerations that are numbers. -/
inductive Integral : Ty → IntTy → Prop
  | int (i : IntTy) : Integral (.prim (.int i)) i
  | enum (i : IntTy) : Integral (.prim (.enumInt i)) i

/-- The size of the types with a fixed number of elements. -/
def fixedSize : Ty → Option Nat
  | .arr n _ => some n
  | .tuple ts => some ts.length
  | _ => none

/-- What the sentences say about a JSON value that is read as a type. -/
inductive TrueOf (env : Env) : Ty → Json → Str → Prop
  | kind (t : Ty) (j : Json) (k : Str) : wants t = some k → kindName j ≠ k → TrueOf env t j (lit "wrong JSON data type; expected: " ++ k)
  | int (t : Ty) (i : IntTy) (j : Json) : Integral t i → i.signed = true → (∀ v : Int, -2147483648 ≤ v → v ≤ 2147483647 → j ≠ .num (.int v)) →
      TrueOf env t j (lit "wrong JSON data type; expected: integer")
  | uint (t : Ty) (i : IntTy) (j : Json) : Integral t i → i.signed = false → (∀ v : Int, 0 ≤ v → v ≤ 4294967295 → j ≠ .num (.int v)) →
      TrueOf env t j (lit "wrong JSON data type; expected: unsigned integer")
  | int64 (t : Ty) (j : Json) : Integral t ⟨.w64, true⟩ → (∀ v : Int, -9223372036854775808 ≤ v → v ≤ 9223372036854775807 → j ≠ .num (.int v)) →
      TrueOf env t j (lit "wrong JSON data type; expected: 64-bit integer")
  | uint64 (t : Ty) (j : Json) : Integral t ⟨.w64, false⟩ → (∀ v : Int, 0 ≤ v → v ≤ 18446744073709551615 → j ≠ .num (.int v)) →
      TrueOf env t j (lit "wrong JSON data type; expected: unsigned 64-bit integer")
  | signed (t : Ty) (i : IntTy) (v : Int) : Integral t i → i.signed = true → v < -(2 ^ (i.width.bits - 1)) ∨ 2 ^ (i.width.bits - 1) - 1 < v →
      TrueOf env t (.num (.int v)) (lit "signed integer out of range")
  | unsigned (t : Ty) (i : IntTy) (v : Int) : Integral t i → i.signed = false → 2 ^ i.width.bits - 1 < v →
      TrueOf env t (.num (.int v)) (lit "unsigned integer out of range")
  | base64 (s : Str) : ¬ WellFormed s → TrueOf env (.prim .bytes) (.str s) (lit "invalid Base64-encoding for sequence of bytes")
  | datetime (s : Str) : (∀ (sep : UInt8) (y m d h mi sec : Nat), (sep = 84 ∨ sep = 32) → y < 10000 → DateTime.ValidTm ⟨y, m, d, h, mi, sec⟩ →
      s ≠ isoText sep y m d h mi sec) →
      TrueOf env (.prim .time) (.str s) (lit "invalid ISO-8601 date-time; expected: YYYY-MM-DDTHH:MM:SSZ, got: " ++ s)
  | date (s : Str) : (∀ y m d : Nat, y < 10000 → DateTime.ValidDate y m d → s ≠ isoDateText y m d) →
      TrueOf env (.prim .date) (.str s) (lit "invalid ISO-8601 date; expected: YYYY-MM-DD, got: " ++ s)
  | enumerator (table : EnumConv.Table) (s : Str) : (∀ p, p ∈ table → p.2 ≠ s) →
      TrueOf env (.prim (.enumStr table)) (.str s) (lit "unrecognized enumeration string value; got: " ++ s)
  | size (t : Ty) (js : List Json) (n : Nat) : fixedSize t = some n → js.length ≠ n →
      TrueOf env t (.arr js) (lit "mismatch in number of array elements; expected: " ++ decimal n ++ lit ", got: " ++ decimal js.length)
  | missing (c : Nat) (m : Member) (ms : List (Str × Json)) : m ∈ env.members c → m.kind = .required → (∀ p, p ∈ ms → p.1 ≠ m.name) →
      TrueOf env (.cls c) (.obj ms) (lit "missing required property: " ++ m.name)
  | variant (ts : List Ty) (j : Json) : (∀ t, t ∈ ts → Refused env false t j) →
      TrueOf env (.variant ts) j (lit "unable to match either of the variant types")

theorem TrueOf.of_kind {env : Env} {t : Ty} {j other : Json} {text : Str} (ht : text = lit "wrong JSON data type; expected: " ++ kindName other)
    (hw : wants t = some (kindName other)) (h : kindName j ≠ kindName other) : TrueOf env t j text := ht ▸ .kind t j _ hw h

theorem intReason_true (env : Env) (ty : Ty) (t : IntTy) (hi : Integral ty t) (j : Json) (h : ∀ v, (wideType t).InRange v → j ≠ .num (.int v)) :
    TrueOf env ty j (Err.expectedInt (wideType t)).text := by
  obtain ⟨w, s⟩ := t
  cases w <;> cases s <;>
    first
    | exact TrueOf.int64 ty j hi fun v h1 h2 => h v ⟨h1, h2⟩
    | exact TrueOf.uint64 ty j hi fun v h1 h2 => h v ⟨h1, h2⟩
    | exact TrueOf.int ty _ j hi rfl fun v h1 h2 => h v ⟨h1, h2⟩
    | exact TrueOf.uint ty _ j hi rfl fun v h1 h2 => h v ⟨h1, h2⟩

theorem rangeReason_true (env : Env) (ty : Ty) (t : IntTy) (hi : Integral ty t) (v : Int) (hw : (wideType t).InRange v) (h : ¬ t.InRange v) :
    TrueOf env ty (.num (.int v)) (Err.outOfRange t.signed).text := by
  obtain ⟨w, s⟩ := t
  cases s with
  | true =>
    refine TrueOf.signed ty _ v hi rfl ?_
    cases w <;> simp only [wideType, IntTy.InRange, IntTy.min, IntTy.max, Width.bits, if_true] at h hw ⊢ <;> omega
  | false =>
    refine TrueOf.unsigned ty _ v hi rfl ?_
    cases w <;> simp only [wideType, IntTy.InRange, IntTy.min, IntTy.max, Width.bits, if_false, Bool.false_eq_true] at h hw ⊢ <;> omega

theorem enumValue_absent {table : EnumConv.Table} {s : Str} (h : EnumConv.enumValue table s = none) : ∀ p, p ∈ table → p.2 ≠ s := by
  rintro ⟨v, n⟩ hp rfl
  obtain ⟨i, hi, he⟩ := List.mem_iff_getElem.1 hp
  exact (C18_read_first table n).2.1 h i v (by unfold At; rw [← he]; exact List.getElem?_eq_getElem hi)

theorem leafReason_true (env : Env) (hclk : 0 < env.clk) (p : Prim) (j : Json) (e : Err) (h : LeafReason env p j e) :
    TrueOf env (.prim p) j e.text := by
  cases h with
  | null _ h => exact .of_kind (other := .null) rfl rfl (by cases j <;> first | exact absurd rfl h | (simp only [kindName]; decide +kernel))
  | bool _ h => exact .of_kind (other := .bool true) rfl rfl (by cases j <;> first | exact absurd rfl (h _) | (simp only [kindName]; decide +kernel))
  | int t _ h => exact intReason_true env _ t (.int t) j h
  | intRange t v hw h => exact rangeReason_true env _ t (.int t) v hw h
  | enumInt t _ h => exact intReason_true env _ t (.enum t) j h
  | enumIntRange t v hw h => exact rangeReason_true env _ t (.enum t) v hw h
  | flt t _ h => exact .of_kind (other := .num (.int 0)) rfl rfl (by cases j <;> first | exact absurd rfl (h _) | (simp only [kindName]; decide +kernel))
  | string _ _ hp h =>
    exact .of_kind (other := .str []) rfl (by cases p <;> first | rfl | (cases hp))
      (by cases j <;> first | exact absurd rfl (h _) | (simp only [kindName]; decide +kernel))
  | bytes s h => exact .base64 s fun hw => by have := (C04_base64_decode_accepts s).2 hw; rw [h] at this; cases this
  | time s h =>
    exact .datetime s fun sep y m d hh mi sec hs hy hv he => by
      have := (C07_parse_accepts_exactly env.clk s).1.2 ⟨sep, y, m, d, hh, mi, sec, hs, hy, hv, he⟩
      exact this h
  | date s h =>
    exact .date s fun y m d hy hv he => by
      have := (C11_date_accepts_exactly env.clk hclk s).1.2 ⟨y, m, d, hy, hv, he⟩
      exact this h
  | enumStr table s h => exact .enumerator table s (enumValue_absent h)

theorem findMember_absent {name : Str} {ms : List (Str × Json)} (h : findMember name ms = none) : ∀ p, p ∈ ms → p.1 ≠ name := by
  induction ms with
  | nil => intro p hp; cases hp
  | cons q ms ih =>
    simp only [findMember] at h
    split at h
    · cases h
    · rename_i hq
      cases hm : findMember name ms with
      | some r => rw [hm] at h; cases h
      | none =>
        intro p hp
        rcases List.mem_cons.1 hp with rfl | hp
        · exact hq
        · exact ih hm p hp

theorem nodeReason_true (env : Env) (hclk : 0 < env.clk) (t : Ty) (j : Json) (e : Err) (ht : ∀ t1, t ≠ .uptr t1) (h : FirstBad env t j [] e) :
    TrueOf env t j e.text := by
  cases h with
  | leaf p _ _ h => exact leafReason_true env hclk p j e h
  | array _ _ hw h =>
    exact .of_kind (other := .arr []) rfl (by cases t <;> first | rfl | (cases hw))
      (by cases j <;> first | exact absurd rfl (h _) | (simp only [kindName]; decide +kernel))
  | object _ _ hw h =>
    exact .of_kind (other := .obj []) rfl (by cases t <;> first | rfl | (cases hw))
      (by cases j <;> first | exact absurd rfl (h _) | (simp only [kindName]; decide +kernel))
  | arrLength n t js h => exact .size _ js n rfl h
  | tupleLength ts js h => exact .size _ js ts.length rfl h
  | variant ts _ h => exact .variant ts j h
  | missing c ms pre m post hm _ hf hk => exact .missing c m ms (by rw [hm]; simp) hk (findMember_absent hf)
  | uptr t _ _ _ _ => exact absurd rfl (ht t)

/-- **C81, what the text says.** The reason in the text of the exception is true of the node at the position that the
exception names.

Missing: `expected: integer` is also said of integers, of those outside of the range of `int` (`C81_integer_expected`). -/
theorem C81_text_true_partial (env : Env) (hclk : 0 < env.clk) (hu : env.Unshared) (t : Ty) (ht : t.unshared = true) (root : Json) (hc : Calm env root)
    (next : Nat) (path : Str) (e : Err) (h : deserializeThrow env t root next = .threw path e) :
    ∃ rel t' j, path = pathStr rel.reverse ∧ Located env t root rel t' j ∧ TrueOf env t' j e.text := by
  obtain ⟨rel, h1, h2⟩ := (C81_first_failure env hu t ht root hc next path e).1 h
  obtain ⟨t', j', h3, h4, h5⟩ := h1.located
  exact ⟨rel, t', j', h2, h3, nodeReason_true env hclk t' j' e h5 h4⟩

/-- **C81, what the text says, for all types** on documents without references. -/
theorem C81_shared_text_true_partial (env : Env) (hclk : 0 < env.clk) (t : Ty) (root : Json) (hn : root.noRef) (hc : Calm env root)
    (next : Nat) (path : Str) (e : Err) (h : deserializeThrow env t root next = .threw path e) :
    ∃ rel t' j, path = pathStr rel.reverse ∧ Located env.lower t.lower root rel t' j ∧ TrueOf env.lower t' j e.text := by
  obtain ⟨rel, h1, h2⟩ := (C81_shared_first_failure env t root hn hc next path e).1 h
  obtain ⟨t', j', h3, h4, h5⟩ := h1.located
  exact ⟨rel, t', j', h2, h3, nodeReason_true env.lower hclk t' j' e h5 h4⟩

example : ∃ rel t' j, lit "/items/1/id" = pathStr rel.reverse ∧ Located plainEnv (.map true (.vec (.cls 1))) severalBad rel t' j ∧
    TrueOf plainEnv t' j (lit "wrong JSON data type; expected: integer") :=
  C81_text_true_partial plainEnv (by decide) plainEnv_unshared (.map true (.vec (.cls 1))) rfl severalBad severalBad_calm 0 _ _ rfl

example : ∃ rel t' j, lit "/right/id" = pathStr rel.reverse ∧ Located Demo.env.lower (Ty.cls 2).lower badBoth rel t' j ∧
    TrueOf Demo.env.lower t' j (lit "wrong JSON data type; expected: integer") :=
  C81_shared_text_true_partial Demo.env (by decide) (.cls 2) badBoth badBoth_noRef badBoth_calm 0 _ _ rfl

/-- **C81, negation.** The document `3000000000` is an integer, and the text says that an integer was expected. -/
theorem C81_integer_expected (next : Nat) :
    ∃ path e, deserializeThrow Demo.env tInt (.num (.int 3000000000)) next = .threw path e ∧
      what path e = lit "wrong JSON data type; expected: integer at /" :=
  ⟨lit "/", .expectedInt ⟨.w32, true⟩, rfl, by decide +kernel⟩

/-! ## The path can be found in the text -/

/-- The text of the document or of the program that the message quotes. -/
def quoted : Err → Str
  | .badDatetime s | .badDate s | .unknownEnumerator s | .missing s => s
  | _ => []

theorem text_mem (e : Err) (c : UInt8) (hc : c = 0 ∨ c = 47) (h : c ∈ e.text) : c ∈ quoted e := by
  have key : ∀ (a : Str), (0 : UInt8) ∉ a → (47 : UInt8) ∉ a → c ∉ a := by
    intro a h1 h2
    rcases hc with rfl | rfl <;> assumption
  have app : ∀ (a b : Str), (0 : UInt8) ∉ a → (47 : UInt8) ∉ a → c ∈ a ++ b → c ∈ b := by
    intro a b h1 h2 h
    rcases List.mem_append.1 h with h | h
    · exact absurd h (key a h1 h2)
    · exact h
  cases e with
  | badDatetime s => exact app _ _ (by decide +kernel) (by decide +kernel) h
  | badDate s => exact app _ _ (by decide +kernel) (by decide +kernel) h
  | unknownEnumerator s => exact app _ _ (by decide +kernel) (by decide +kernel) h
  | missing s => exact app _ _ (by decide +kernel) (by decide +kernel) h
  | sizeMismatch n m =>
    exfalso
    simp only [Err.text, List.mem_append] at h
    rcases h with ((h | h) | h) | h
    · exact key _ (by decide +kernel) (by decide +kernel) h
    · exact key _ (decimal_no_nul n) (decimal_no_slash n) h
    · exact key _ (by decide +kernel) (by decide +kernel) h
    · exact key _ (decimal_no_nul m) (decimal_no_slash m) h
  | expectedInt t =>
    exfalso
    obtain ⟨w, s⟩ := t
    cases w <;> cases s <;> exact key _ (by decide +kernel) (by decide +kernel) h
  | outOfRange s => cases s <;> exact absurd h (key _ (by decide +kernel) (by decide +kernel))
  | _ => exact absurd h (key _ (by decide +kernel) (by decide +kernel))

/-- **C81, the path is in the text.** If what the message quotes has no slash and no NUL character, `what()` is the
reason, `" at "` and the path, and the path is everything from the first slash.

Missing: quotations with a slash (`C81_ambiguous`) or a NUL character (`C81_cut`). -/
theorem C81_path_in_text_partial (env : Env) (hu : env.Unshared) (t : Ty) (ht : t.unshared = true) (root : Json) (hc : Calm env root) (next : Nat)
    (path : Str) (e : Err) (h : deserializeThrow env t root next = .threw path e) (h0 : (0 : UInt8) ∉ quoted e) (h1 : (47 : UInt8) ∉ quoted e) :
    what path e = e.text ++ lit " at " ++ path ∧ (what path e).dropWhile (· ≠ 47) = path := by
  obtain ⟨rel, hf, rfl⟩ := (C81_first_failure env hu t ht root hc next path e).1 h
  have hz : (0 : UInt8) ∉ errorText (pathStr rel.reverse) e := by
    simp only [errorText, List.mem_append, not_or]
    exact ⟨⟨fun h => h0 (text_mem e 0 (.inl rfl) h), by decide +kernel⟩,
      pathStr_no_nul _ fun n hn => hf.noNul n (List.mem_reverse.1 hn)⟩
  have hw : what (pathStr rel.reverse) e = e.text ++ lit " at " ++ pathStr rel.reverse := cstr_eq _ hz
  refine ⟨hw, ?_⟩
  rw [hw]
  obtain ⟨rest, hr⟩ := pathStr_slash rel.reverse
  have hs : ∀ c ∈ e.text ++ lit " at ", decide (c ≠ 47) = true := by
    intro c hcm
    simp only [decide_eq_true_eq]
    rintro rfl
    rcases List.mem_append.1 hcm with h | h
    · exact h1 (text_mem e 47 (.inr rfl) h)
    · revert h; decide +kernel
  rw [List.dropWhile_append_of_pos hs, hr]
  rfl

example : what (lit "/items/1/id") (.expectedInt ⟨.w32, true⟩) = lit "wrong JSON data type; expected: integer at /items/1/id" ∧
    (what (lit "/items/1/id") (.expectedInt ⟨.w32, true⟩)).dropWhile (· ≠ 47) = lit "/items/1/id" :=
  C81_path_in_text_partial plainEnv plainEnv_unshared (.map true (.vec (.cls 1))) rfl severalBad severalBad_calm 0 _ _ rfl (by decide) (by decide)

/-- An enumeration with the values `red` and `blue`. -/
def colours : EnumConv.Table := [(0, lit "red"), (1, lit "blue")]

/-- **C81, negation.** Two documents with errors at different places and the same text: the string `x at /a` at `/b`,
and the string `x` at `/a at /b`. -/
theorem C81_ambiguous (next : Nat) : ∃ t root1 root2 path1 path2 e1 e2,
    deserializeThrow plainEnv t root1 next = .threw path1 e1 ∧ deserializeThrow plainEnv t root2 next = .threw path2 e2 ∧
      what path1 e1 = what path2 e2 ∧ path1 ≠ path2 :=
  ⟨.map true (.prim (.enumStr colours)), .obj [(lit "b", .str (lit "x at /a"))], .obj [(lit "a at /b", .str (lit "x"))],
    lit "/b", lit "/a at /b", .unknownEnumerator (lit "x at /a"), .unknownEnumerator (lit "x"), rfl, rfl, by decide +kernel, by decide +kernel⟩

/-- **C81, negation.** A NUL character in the document ends the text: it names no path. -/
theorem C81_cut (next : Nat) : ∃ root path e, deserializeThrow plainEnv (.map true (.prim (.enumStr colours))) root next = .threw path e ∧
    path = lit "/b" ∧ what path e = lit "unrecognized enumeration string value; got: x" :=
  ⟨.obj [(lit "b", .str [120, 0])], _, _, rfl, rfl, by decide +kernel⟩

end Verif.Props
