import Verif.SchemaInv
import Verif.DerivedWrite
import Verif.ParseBack

/-!
# Schemas are values of classes

The classes of schema.hpp as a program for the writer, and the object that the generator makes for each schema. `schema_to_string`
(schema_utility.hpp:14-24) writes this object.
-/

namespace Verif.Core
open Verif.Numeric Verif.EnumConv

/-! ## The classes -/

/-- `JsonSchemaType` (schema.hpp:22-31). -/
def tSchema : Ty := .variant [.cls 0, .cls 1, .cls 2, .cls 3, .cls 4, .cls 5, .cls 6, .cls 7]

/-- `std::string_view`, `long long`, `unsigned long long` and `std::size_t`. -/
abbrev tView : Ty := .prim .str
/-- `long long` -/
abbrev tLong : Ty := .prim (.int ⟨.w64, true⟩)
/-- `unsigned long long`, `std::size_t` -/
abbrev tSize : Ty := .prim (.int ⟨.w64, false⟩)

/-- The members of the classes in `JsonSchemaType`, by the index of the alternative: reference (schema.hpp:33-49), fundamental (72-108), signed (110-130),
unsigned (132-151), enumeration (153-174), array (176-197), object (199-219), one-of (221-232). -/
def schemaMembers : Nat → List Member
  | 0 => [⟨lit "$ref", .required, tView⟩]
  | 1 => [⟨lit "type", .required, tView⟩, ⟨lit "format", .optional, tView⟩, ⟨lit "contentEncoding", .optional, tView⟩]
  | 2 => [⟨lit "type", .required, tView⟩, ⟨lit "minimum", .required, tLong⟩, ⟨lit "maximum", .required, tLong⟩]
  | 3 => [⟨lit "type", .required, tView⟩, ⟨lit "minimum", .required, tSize⟩, ⟨lit "maximum", .required, tSize⟩]
  | 4 => [⟨lit "type", .required, tView⟩, ⟨lit "enum", .required, .variant [.vec tLong, .vec tSize, .vec tView]⟩]
  | 5 => [⟨lit "type", .required, tView⟩, ⟨lit "items", .optional, .uptr tSchema⟩, ⟨lit "prefixItems", .optional, .vec (.uptr tSchema)⟩,
      ⟨lit "uniqueItems", .optional, .prim .bool⟩, ⟨lit "minItems", .optional, tSize⟩, ⟨lit "maxItems", .optional, tSize⟩]
  | 6 => [⟨lit "type", .required, tView⟩, ⟨lit "properties", .optional, .dict (.uptr tSchema)⟩, ⟨lit "required", .optional, .vec tView⟩,
      ⟨lit "additionalProperties", .optional, .variant [.prim .bool, .uptr tSchema]⟩]
  | 7 => [⟨lit "oneOf", .required, .vec (.uptr tSchema)⟩]
  | _ => []

/-- The members of `JsonSchemaDocument` that come before those of the base class (schema.hpp:606-617). -/
def documentMembers : List Member := [⟨lit "$schema", .optional, tView⟩, ⟨lit "definitions", .optional, .map true tSchema⟩]

/-- The classes of schema.hpp: class `k < 8` is alternative `k` of `JsonSchemaType`, class `8 + k` is `JsonSchemaDocument` of it (schema.hpp:583-618). -/
def schemaProgram (env : Env) : Env := { env with
  classes := fun c => if c < 8 then ⟨[], schemaMembers c⟩ else ⟨[], documentMembers ++ schemaMembers (c - 8)⟩ }

/-- The members that are handled by the original archive: `JsonSchemaDocument` passes a copy to its base class (schema.hpp:612-616). -/
def schemaOwn (c : Nat) : Nat := if c < 8 then 6 else 2

/-! ## The objects -/

/-- The alternative of `JsonSchemaType` (schema.hpp:22-31). -/
def Schema.kind : Schema → Nat
  | .ref _ => 0
  | .fundamental .. => 1
  | .signed .. => 2
  | .unsigned _ => 3
  | .enumeration _ => 4
  | .items .. => 5
  | .tuple _ => 5
  | .object .. => 6
  | .mapping _ => 6
  | .oneOf _ => 7

/-- A string. -/
def strVal (s : Str) : Val := .prim (.str s)

/-- A `std::optional`. -/
def optVal : Option Val → Val
  | some v => .present v
  | none => .absent

mutual
/-- The values of the members that the constructors and generators set: reference (schema.hpp:36-38, 402-404), fundamental (76-93),
signed (112-117), unsigned (134-140), enumeration (155-164), array (492-503, 541-562), tuple (505-520), class (453-466), map (564-574), variant (528-539). -/
def Schema.slots : Schema → List Val
  | .ref r => [strVal r]
  | .fundamental type format enc => [strVal type, optVal (format.map strVal), optVal (enc.map strVal)]
  | .signed lo hi => [strVal (lit "integer"), .prim (.int lo), .prim (.int hi)]
  | .unsigned hi => [strVal (lit "integer"), .prim (.int 0), .prim (.int hi)]
  | .enumeration type => [strVal type, .alt 0 (.seq [])]
  | .items s unique size => [strVal (lit "array"), .present (.uptr (.alt s.kind (.obj s.slots))), .absent, if unique then .present (.prim (.bool true)) else .absent,
      optVal (size.map fun n => .prim (.int n)), optVal (size.map fun n => .prim (.int n))]
  | .tuple ss => [strVal (lit "array"), .absent, .present (.seq (Schema.ptrs ss)), .absent, .present (.prim (.int ss.length)), .present (.prim (.int ss.length))]
  | .object ps rs => [strVal (lit "object"), .present (.dict (Schema.pairs ps)), .present (.seq (rs.map strVal)), .present (.alt 0 (.prim (.bool false)))]
  | .mapping s => [strVal (lit "object"), .absent, .absent, .present (.alt 1 (.uptr (.alt s.kind (.obj s.slots))))]
  | .oneOf ss => [.seq (Schema.ptrs ss)]

/-- `std::vector<std::unique_ptr<JsonSchemaType>>` (schema.hpp:513-515, 534-536). -/
def Schema.ptrs : List Schema → List Val
  | [] => []
  | s :: ss => .uptr (.alt s.kind (.obj s.slots)) :: Schema.ptrs ss

/-- `JsonSchemaObjectProperties` (schema.hpp:199, 431-433). -/
def Schema.pairs : List (Str × Schema) → List (Str × Val)
  | [] => []
  | (k, s) :: ps => (k, .uptr (.alt s.kind (.obj s.slots))) :: Schema.pairs ps
end

/-- `JsonSchemaDefinitions` (schema.hpp:234, 394-399). -/
def definitionsVal (defs : Defs) : Val := .map (defs.map fun p => (p.1, .alt p.2.kind (.obj p.2.slots)))

/-- `JsonSchemaDocument` (schema.hpp:586-603, 641-647, 659-665). -/
def documentVal (version : Option Str) (defs : Defs) (s : Schema) : Val :=
  .obj (optVal (version.map strVal) :: optVal (if defs = [] then none else some (definitionsVal defs)) :: s.slots)

/-- `write_to_string(schema<T>())` and `write_to_string(schema_document<T>())` (schema_utility.hpp:14-24): the schema is built and written. -/
def schemaToString (env : Env) (version : Option Str) (fuel : Nat) (t : Ty) (before : List Event) : Option (Bool × List Event) :=
  match buildSchema env fuel t with
  | none => none
  | some (s, defs) => writeToStringD (schemaProgram env) schemaOwn (.cls (8 + s.kind)) (documentVal version defs s) before

/-! ## Writing -/

section
variable (env : Env)

/-- Some writer writes a document and leaves the table alone. -/
def Prints (f : WriteFn) (j : Json) : Prop := ∀ segs σ, f segs σ = .done σ true (events j)

theorem prints_str (s : Str) : Prints (wr env (strVal s) tView) (.str s) := fun _ _ => by simp [strVal, wr, serPrim]

theorem prints_int (t : IntTy) (n : Int) : Prints (wr env (.prim (.int n)) (.prim (.int t))) (.num (.int n)) := fun _ _ => by simp [wr, serPrim]

theorem prints_bool (b : Bool) : Prints (wr env (.prim (.bool b)) (.prim .bool)) (.bool b) := fun _ _ => by simp [wr, serPrim]

theorem items_prints (t : Ty) : ∀ (vs : List Val) (js : List Json), List.Forall₂ (fun v j => Prints (wr env v t) j) vs js → ∀ k segs σ,
    wrItems env vs (List.replicate vs.length t) k segs σ = .done σ true (eventsItems js) := by
  intro vs js h
  induction h with
  | nil => intro k segs σ; simp [wrItems, eventsItems]
  | cons h1 _ ih =>
    intro k segs σ
    simp only [List.length_cons, List.replicate_succ, wrItems, h1 _ σ, ih, WRes.before, eventsItems]

theorem prints_vec (t : Ty) (vs : List Val) (js : List Json) (h : List.Forall₂ (fun v j => Prints (wr env v t) j) vs js) :
    Prints (wr env (.seq vs) (.vec t)) (.arr js) := fun segs σ => by
  simp [wr, items_prints env t vs js h, WRes.before, WRes.close, events]

theorem entries_prints : ∀ (fs : List (Str × WriteFn)) (ms : List (Str × Json)), List.Forall₂ (fun f m => f.1 = m.1 ∧ Prints f.2 m.2) fs ms → ∀ segs σ,
    writeEntries fs segs σ = .done σ true (eventsMembers ms) := by
  intro fs ms h
  induction h with
  | nil => intro segs σ; simp [writeEntries, eventsMembers]
  | @cons f m _ _ h1 _ ih =>
    intro segs σ
    obtain ⟨k, f⟩ := f
    obtain ⟨k', j⟩ := m
    obtain ⟨hk, h1⟩ := h1
    simp only at hk h1
    subst hk
    simp only [writeEntries, h1 _ σ, ih, WRes.before, eventsMembers, List.cons_append]

/-- Members written one after the other. -/
inductive Shown (env : Env) : List Val → List Member → List (Str × Json) → Prop
  | nil : Shown env [] [] []
  | req (v : Val) (vs : List Val) (name : Str) (t : Ty) (ms : List Member) (j : Json) (js : List (Str × Json)) : Prints (wr env v t) j → Shown env vs ms js →
      Shown env (v :: vs) (⟨name, .required, t⟩ :: ms) ((name, j) :: js)
  | opt (v : Val) (vs : List Val) (name : Str) (t : Ty) (ms : List Member) (j : Json) (js : List (Str × Json)) : Prints (wr env v t) j → Shown env vs ms js →
      Shown env (.present v :: vs) (⟨name, .optional, t⟩ :: ms) ((name, j) :: js)
  | skip (vs : List Val) (name : Str) (t : Ty) (ms : List Member) (js : List (Str × Json)) : Shown env vs ms js →
      Shown env (.absent :: vs) (⟨name, .optional, t⟩ :: ms) js

theorem shown_members {vs : List Val} {ms : List Member} {js : List (Str × Json)} (h : Shown env vs ms js) : ∀ segs σ,
    wrMembers env vs ms segs σ = .done σ true (eventsMembers js) := by
  induction h with
  | nil => intro segs σ; simp [wrMembers, eventsMembers]
  | req v vs name t ms j js h1 _ ih =>
    intro segs σ
    rw [wrMembers.eq_def]
    simp only [h1 _ σ, ih, WRes.before, eventsMembers, List.cons_append]
  | opt v vs name t ms j js h1 _ ih =>
    intro segs σ
    rw [wrMembers.eq_def]
    simp only [h1 _ σ, ih, WRes.before, eventsMembers, List.cons_append]
  | skip vs name t ms js _ ih =>
    intro segs σ
    rw [wrMembers.eq_def]
    simp only [ih]

theorem Shown.optional {vs : List Val} {ms : List Member} {js : List (Str × Json)} (h : Shown env vs ms js) (name : Str) (t : Ty) (o : Option (Val × Json))
    (ho : ∀ p ∈ o, Prints (wr env p.1 t) p.2) :
    Shown env (optVal (o.map (·.1)) :: vs) (⟨name, .optional, t⟩ :: ms) (optField name (o.map (·.2)) ++ js) := by
  cases o with
  | none => exact .skip _ _ _ _ _ h
  | some p => exact .opt _ _ _ _ _ _ _ (ho p rfl) h

end

/-- What is to be shown for a schema. -/
def SchemaShown (env : Env) (s : Schema) : Prop := Shown (schemaProgram env) s.slots (schemaMembers s.kind) s.fields

theorem schema_members (env : Env) (k : Nat) (h : k < 8) : (schemaProgram env).members k = schemaMembers k := by
  simp [Env.members, schemaProgram, h]

theorem kind_lt (s : Schema) : s.kind < 8 := by cases s <;> simp [Schema.kind]

theorem prints_cls {env : Env} {s : Schema} (h : SchemaShown env s) : Prints (wr (schemaProgram env) (.obj s.slots) (.cls s.kind)) s.json := fun segs σ => by
  rw [wr, schema_members env _ (kind_lt s), shown_members _ h]
  simp [WRes.before, WRes.close, Schema.json, events]

theorem prints_schema {env : Env} {s : Schema} (h : SchemaShown env s) : Prints (wr (schemaProgram env) (.alt s.kind (.obj s.slots)) tSchema) s.json := fun segs σ => by
  rw [tSchema, wr]
  have : [Ty.cls 0, .cls 1, .cls 2, .cls 3, .cls 4, .cls 5, .cls 6, .cls 7][s.kind]? = some (.cls s.kind) := by cases s <;> rfl
  rw [this]
  exact prints_cls h segs σ

theorem prints_ptr {env : Env} {s : Schema} (h : SchemaShown env s) : Prints (wr (schemaProgram env) (.uptr (.alt s.kind (.obj s.slots))) (.uptr tSchema)) s.json :=
  fun segs σ => by rw [wr]; exact prints_schema h segs σ

theorem ptrs_shown {env : Env} {ss : List Schema} (h : ∀ s ∈ ss, SchemaShown env s) :
    List.Forall₂ (fun v j => Prints (wr (schemaProgram env) v (.uptr tSchema)) j) (Schema.ptrs ss) (Schema.jsons ss) := by
  induction ss with
  | nil => simp [Schema.ptrs, Schema.jsons]
  | cons s ss ih =>
    rw [Schema.ptrs, Schema.jsons]
    exact .cons (prints_ptr (h s (by simp))) (ih fun s hs => h s (by simp [hs]))

theorem pairs_shown {env : Env} {ps : List (Str × Schema)} (h : ∀ p ∈ ps, SchemaShown env p.2) :
    List.Forall₂ (fun f m => f.1 = m.1 ∧ Prints f.2 m.2) ((Schema.pairs ps).map fun p => (p.1, wr (schemaProgram env) p.2 (.uptr tSchema))) (Schema.entries ps) := by
  induction ps with
  | nil => simp [Schema.pairs, Schema.entries]
  | cons p ps ih =>
    obtain ⟨k, s⟩ := p
    rw [Schema.pairs, Schema.entries]
    exact .cons ⟨rfl, prints_ptr (h (k, s) (by simp))⟩ (ih fun s hs => h s (by simp [hs]))

theorem definitions_shown {env : Env} {ps : List (Str × Schema)} (h : ∀ p ∈ ps, SchemaShown env p.2) :
    List.Forall₂ (fun f m => f.1 = m.1 ∧ Prints f.2 m.2) (ps.map fun p => (p.1, wr (schemaProgram env) (.alt p.2.kind (.obj p.2.slots)) tSchema)) (Schema.entries ps) := by
  induction ps with
  | nil => simp [Schema.entries]
  | cons p ps ih =>
    obtain ⟨k, s⟩ := p
    rw [Schema.entries]
    exact .cons ⟨rfl, prints_schema (h (k, s) (by simp))⟩ (ih fun s hs => h s (by simp [hs]))

theorem strings_shown (env : Env) (rs : List Str) : List.Forall₂ (fun v j => Prints (wr env v tView) j) (rs.map strVal) (rs.map .str) := by
  induction rs with
  | nil => simp
  | cons r rs ih => exact .cons (prints_str env r) ih

/-- The members of a schema are those of its object. -/
theorem schema_shown (env : Env) (s : Schema) : SchemaShown env s := by
  refine Schema.rec (motive_1 := SchemaShown env) (motive_2 := fun ss => ∀ s ∈ ss, SchemaShown env s) (motive_3 := fun ps => ∀ p ∈ ps, SchemaShown env p.2)
    (motive_4 := fun p => SchemaShown env p.2) ?_ ?_ ?_ ?_ ?_ ?_ ?_ ?_ ?_ ?_ ?_ ?_ ?_ ?_ ?_ s
  · intro r
    rw [SchemaShown, Schema.slots, Schema.fields]
    exact .req _ _ _ _ _ _ _ (prints_str _ _) .nil
  · intro type format enc
    rw [SchemaShown, Schema.slots, Schema.fields]
    refine .req _ _ _ _ _ _ _ (prints_str _ _) ?_
    have h1 := Shown.optional (schemaProgram env) .nil (lit "contentEncoding") tView (enc.map fun e => (strVal e, .str e)) (by
      intro p hp
      cases enc with
      | none => cases hp
      | some e => cases hp; exact prints_str _ _)
    have h2 := Shown.optional (schemaProgram env) h1 (lit "format") tView (format.map fun e => (strVal e, .str e)) (by
      intro p hp
      cases format with
      | none => cases hp
      | some e => cases hp; exact prints_str _ _)
    simp only [Option.map_map, Function.comp_def, List.append_nil] at h2
    exact h2
  · intro lo hi
    rw [SchemaShown, Schema.slots, Schema.fields]
    exact .req _ _ _ _ _ _ _ (prints_str _ _) (.req _ _ _ _ _ _ _ (prints_int _ _ _) (.req _ _ _ _ _ _ _ (prints_int _ _ _) .nil))
  · intro hi
    rw [SchemaShown, Schema.slots, Schema.fields]
    exact .req _ _ _ _ _ _ _ (prints_str _ _) (.req _ _ _ _ _ _ _ (prints_int _ _ _) (.req _ _ _ _ _ _ _ (prints_int _ _ _) .nil))
  · intro type
    rw [SchemaShown, Schema.slots, Schema.fields]
    exact .req _ _ _ _ _ _ _ (prints_str _ _) (.req _ _ _ _ _ _ _ (fun _ _ => rfl) .nil)
  · intro s unique size ih
    rw [SchemaShown, Schema.slots, Schema.fields]
    refine .req _ _ _ _ _ _ _ (prints_str _ _) (.opt _ _ _ _ _ _ _ (prints_ptr ih) (.skip _ _ _ _ _ ?_))
    have h1 := Shown.optional (schemaProgram env) .nil (lit "maxItems") tSize (size.map fun n => (.prim (.int n), .num (.int n))) (by
      intro p hp
      cases size with
      | none => cases hp
      | some e => cases hp; exact prints_int _ _ _)
    have h2 := Shown.optional (schemaProgram env) h1 (lit "minItems") tSize (size.map fun n => (.prim (.int n), .num (.int n))) (by
      intro p hp
      cases size with
      | none => cases hp
      | some e => cases hp; exact prints_int _ _ _)
    simp only [Option.map_map, Function.comp_def, List.append_nil] at h2
    cases unique with
    | false => exact .skip _ _ _ _ _ h2
    | true => exact .opt _ _ _ _ _ _ _ (prints_bool _ _) h2
  · intro ss ih
    rw [SchemaShown, Schema.slots, Schema.fields]
    exact .req _ _ _ _ _ _ _ (prints_str _ _) (.skip _ _ _ _ _ (.opt _ _ _ _ _ _ _ (prints_vec _ _ _ _ (ptrs_shown ih)) (.skip _ _ _ _ _
      (.opt _ _ _ _ _ _ _ (prints_int _ _ _) (.opt _ _ _ _ _ _ _ (prints_int _ _ _) .nil)))))
  · intro ps rs ih
    rw [SchemaShown, Schema.slots, Schema.fields]
    refine .req _ _ _ _ _ _ _ (prints_str _ _) (.opt _ _ _ _ _ _ _ (fun segs σ => ?_) (.opt _ _ _ _ _ _ _ (prints_vec _ _ _ _ (strings_shown _ _))
      (.opt _ _ _ _ _ _ _ (fun segs σ => ?_) .nil)))
    · rw [wr, wrVals_eq, entries_prints _ _ (pairs_shown ih)]
      simp [WRes.before, WRes.close, events]
    · exact prints_bool (schemaProgram env) _ segs σ
  · intro s ih
    rw [SchemaShown, Schema.slots, Schema.fields]
    exact .req _ _ _ _ _ _ _ (prints_str _ _) (.skip _ _ _ _ _ (.skip _ _ _ _ _ (.opt _ _ _ _ _ _ _ (fun segs σ => prints_ptr ih segs σ) .nil)))
  · intro ss ih
    rw [SchemaShown, Schema.slots, Schema.fields]
    exact .req _ _ _ _ _ _ _ (prints_vec _ _ _ _ (ptrs_shown ih)) .nil
  · exact fun s hs => absurd hs (List.not_mem_nil)
  · intro s ss h1 h2 s' hs
    rcases List.mem_cons.1 hs with rfl | hs
    · exact h1
    · exact h2 _ hs
  · exact fun s hs => absurd hs (List.not_mem_nil)
  · intro s ss h1 h2 s' hs
    rcases List.mem_cons.1 hs with rfl | hs
    · exact h1
    · exact h2 _ hs
  · exact fun k s h => h

/-- The document of a schema is written. -/
theorem document_written (env : Env) (version : Option Str) (defs : Defs) (s : Schema) (before : List Event) :
    writeToString (schemaProgram env) (.cls (8 + s.kind)) (documentVal version defs s) before = some (true, events (schemaDoc version defs s)) := by
  have h1 := schema_shown env s
  have h2 := Shown.optional (schemaProgram env) h1 (lit "definitions") (.map true tSchema) (if defs = [] then none else some (definitionsVal defs, .obj (Schema.entries defs))) (by
    intro p hp segs σ
    split at hp
    · cases hp
    · cases hp
      simp only [definitionsVal, wr, wrVals_eq, iterate, if_true, List.map_map, Function.comp_def]
      rw [entries_prints _ _ (definitions_shown fun p _ => schema_shown env p.2)]
      simp [WRes.before, WRes.close, events])
  have h3 := Shown.optional (schemaProgram env) h2 (lit "$schema") tView (version.map fun e => (strVal e, .str e)) (by
      intro p hp
      cases version with
      | none => cases hp
      | some e => cases hp; exact prints_str _ _)
  have hm : (schemaProgram env).members (8 + s.kind) = documentMembers ++ schemaMembers s.kind := by
    simp only [Env.members, schemaProgram]
    rw [if_neg (by omega), Nat.add_sub_cancel_left]
  rw [writeToString, documentVal, wr, hm]
  simp only [Option.map_map, Function.comp_def] at h3
  rw [show optVal (if defs = [] then none else some (definitionsVal defs)) = optVal ((if defs = [] then none else some (definitionsVal defs, Json.obj (Schema.entries defs))).map (·.1))
    by split <;> rfl]
  rw [documentMembers, List.cons_append, List.cons_append, List.nil_append, shown_members _ h3]
  simp only [WRes.before, WRes.close, schemaDoc, events, List.cons_append, List.nil_append, List.append_assoc]
  split <;> rfl

/-! ## The document has a text -/

open Verif.Text

theorem doublesFields_append (a b : List (Str × Json)) : doublesFields (a ++ b) = doublesFields a ++ doublesFields b := by
  induction a with
  | nil => simp [doublesFields]
  | cons p a ih => obtain ⟨k, j⟩ := p; simp [doublesFields, ih]

theorem properFields_append (a b : List (Str × Json)) : Json.properFields (a ++ b) = (Json.properFields a && Json.properFields b) := by
  induction a with
  | nil => simp [Json.properFields]
  | cons p a ih => obtain ⟨k, j⟩ := p; simp [Json.properFields, ih, Bool.and_assoc]

theorem doubles_strs (rs : List Str) : doublesAll (rs.map .str) = [] := by
  induction rs with
  | nil => rfl
  | cons r rs ih => simp [doublesAll, doubles, ih]

theorem proper_strs (rs : List Str) : Json.properAll (rs.map .str) = true := by
  induction rs with
  | nil => rfl
  | cons r rs ih => simp [Json.properAll, Json.proper, ih]

mutual
/-- Schemas have no floating-point numbers. -/
theorem schema_doubles : ∀ s : Schema, doublesFields s.fields = []
  | .ref r => by simp [Schema.fields, doublesFields, doubles]
  | .fundamental type format enc => by cases format <;> cases enc <;> simp [Schema.fields, doublesFields, doubles, optField]
  | .signed .. => by simp [Schema.fields, doublesFields, doubles]
  | .unsigned .. => by simp [Schema.fields, doublesFields, doubles]
  | .enumeration .. => by simp [Schema.fields, doublesFields, doubles, doublesAll]
  | .items s unique size => by cases unique <;> cases size <;> simp [Schema.fields, doublesFields, doubles, optField, schema_doubles s]
  | .tuple ss => by simp [Schema.fields, doublesFields, doubles, schemas_doubles ss]
  | .object ps rs => by simp [Schema.fields, doublesFields, doubles, entries_doubles ps, doubles_strs]
  | .mapping s => by simp [Schema.fields, doublesFields, doubles, schema_doubles s]
  | .oneOf ss => by simp [Schema.fields, doublesFields, doubles, schemas_doubles ss]

/-- The same for lists. -/
theorem schemas_doubles : ∀ ss : List Schema, doublesAll (Schema.jsons ss) = []
  | [] => rfl
  | s :: ss => by simp [Schema.jsons, doublesAll, doubles, schema_doubles s, schemas_doubles ss]

/-- The same for properties. -/
theorem entries_doubles : ∀ ps : List (Str × Schema), doublesFields (Schema.entries ps) = []
  | [] => rfl
  | (k, s) :: ps => by simp [Schema.entries, doublesFields, doubles, schema_doubles s, entries_doubles ps]
end

/-- The sizes of arrays and tuples are values of `std::size_t`. -/
def Sized (env : Env) (t : Ty) : Prop := ∀ u, Within env t u → (∀ n u', u = .arr n u' → n < 2 ^ 64) ∧ ∀ us, u = .tuple us → us.length < 2 ^ 64

theorem Sized.inner {env : Env} {t t' : Ty} (h : Sized env t) (hi : Inner env t t') : Sized env t' := fun u hu => h u (.of_inner hi hu)

/-- All integers of the schema can be written. -/
def Schema.Fine (s : Schema) : Prop := Json.properFields s.fields = true

theorem fine_jsons {ss : List Schema} (h : ∀ s ∈ ss, s.Fine) : Json.properAll (Schema.jsons ss) = true := by
  induction ss with
  | nil => rfl
  | cons s ss ih =>
    have := h s (by simp)
    unfold Schema.Fine at this
    simp [Schema.jsons, Json.properAll, Json.proper, this, ih fun s hs => h s (by simp [hs])]

theorem fine_entries {ps : List (Str × Schema)} (h : ∀ p ∈ ps, p.2.Fine) : Json.properFields (Schema.entries ps) = true := by
  induction ps with
  | nil => rfl
  | cons p ps ih =>
    obtain ⟨k, s⟩ := p
    have := h (k, s) (by simp)
    unfold Schema.Fine at this
    simp only at this
    simp [Schema.entries, Json.properFields, Json.proper, this, ih fun s hs => h s (by simp [hs])]

theorem proper_nat {n : Nat} (h : n < 2 ^ 64) : Json.proper (.num (.int n)) = true :=
  inRange_proper ⟨.w64, false⟩ n ⟨by
    have : (⟨.w64, false⟩ : IntTy).min = 0 := by decide
    rw [this]; omega, by
    have : (⟨.w64, false⟩ : IntTy).max = 2 ^ 64 - 1 := by decide
    rw [this]; omega⟩

theorem fine_prim (p : Prim) : (primSchema p).Fine := by
  unfold Schema.Fine
  cases p with
  | int t =>
    obtain ⟨w, sg⟩ := t
    cases sg <;> cases w <;> decide +kernel
  | _ => simp only [primSchema] <;> rfl

/-- All schemas of a result are fine. -/
def GenFine {α : Type} (P : α → Prop) (g : Gen α) : Prop := ∀ a D, g = some (a, D) → P a ∧ ∀ p ∈ D, p.2.Fine

/-- Generators keep the definitions fine. -/
def MakesFine (env : Env) (make : Ty → Defs → Gen Schema) (t : Ty) : Prop :=
  Sized env t → ∀ D : Defs, (∀ p ∈ D, p.2.Fine) → GenFine Schema.Fine (make t D)

theorem fine_insert {name : Str} {s : Schema} {D : Defs} (hs : s.Fine) (hD : ∀ p ∈ D, p.2.Fine) : ∀ p ∈ D.insert name s, p.2.Fine := by
  intro p hp
  unfold Defs.insert at hp
  split at hp
  · exact hD p hp
  · rcases mapAssign_mem hp with rfl | hp
    · exact hs
    · exact hD p hp

theorem fine_ref (r : Str) : (Schema.ref r).Fine := by simp [Schema.Fine, Schema.fields, Json.properFields, Json.proper]

theorem makeWith_fine (env : Env) (gen : Ty → Defs → Gen Schema) (t : Ty) (h : MakesFine env gen t) : MakesFine env (makeWith env gen) t := by
  intro hs D hD
  cases t with
  | cls c =>
    intro a D' he
    rw [makeWith] at he
    cases hg : gen (.cls c) D with
    | none => rw [hg] at he; cases he
    | some r =>
      obtain ⟨s, D1⟩ := r
      rw [hg] at he
      cases he
      obtain ⟨h1, h2⟩ := h hs D hD s D1 hg
      exact ⟨fine_ref _, fine_insert h1 h2⟩
  | _ => exact h hs D hD

theorem makesWith_fine (env : Env) (make : Ty → Defs → Gen Schema) (ts : List Ty) (h : ∀ t ∈ ts, MakesFine env make t) (hs : ∀ t ∈ ts, Sized env t) :
    ∀ D : Defs, (∀ p ∈ D, p.2.Fine) → GenFine (fun ss => (∀ s ∈ ss, s.Fine) ∧ ss.length = ts.length) (makesWith make ts D) := by
  induction ts with
  | nil =>
    intro D hD a D' he
    cases he
    exact ⟨⟨fun s hs => absurd hs List.not_mem_nil, rfl⟩, hD⟩
  | cons t ts ih =>
    intro D hD a D' he
    rw [makesWith] at he
    cases hg : make t D with
    | none => rw [hg] at he; cases he
    | some r =>
      obtain ⟨s, D1⟩ := r
      obtain ⟨h1, h2⟩ := h t (by simp) (hs t (by simp)) D hD s D1 hg
      rw [hg] at he
      simp only [Option.bind_some] at he
      cases hg' : makesWith make ts D1 with
      | none => rw [hg'] at he; cases he
      | some r' =>
        obtain ⟨ss, D2⟩ := r'
        rw [hg'] at he
        cases he
        obtain ⟨⟨h3, h4⟩, h5⟩ := ih (fun t ht => h t (by simp [ht])) (fun t ht => hs t (by simp [ht])) D1 h2 ss _ hg'
        refine ⟨⟨fun s' hs' => ?_, by simp [h4]⟩, h5⟩
        rcases List.mem_cons.1 hs' with rfl | hs'
        · exact h1
        · exact h3 _ hs'

theorem visitWith_fine (env : Env) (make : Ty → Defs → Gen Schema) (ms : List Member) (h : ∀ m ∈ ms, MakesFine env make m.ty) (hs : ∀ m ∈ ms, Sized env m.ty) :
    ∀ D : Defs, (∀ p ∈ D, p.2.Fine) → GenFine (fun r => ∀ p ∈ r.1, p.2.Fine) (visitWith make ms D) := by
  induction ms with
  | nil =>
    intro D hD a D' he
    cases he
    exact ⟨fun s hs => absurd hs List.not_mem_nil, hD⟩
  | cons m ms ih =>
    intro D hD a D' he
    rw [visitWith] at he
    cases hg : make m.ty D with
    | none => rw [hg] at he; cases he
    | some r =>
      obtain ⟨s, D1⟩ := r
      obtain ⟨h1, h2⟩ := h m (by simp) (hs m (by simp)) D hD s D1 hg
      rw [hg] at he
      simp only [Option.bind_some] at he
      cases hg' : visitWith make ms D1 with
      | none => rw [hg'] at he; cases he
      | some r' =>
        obtain ⟨⟨ps, rs⟩, D2⟩ := r'
        rw [hg'] at he
        cases he
        obtain ⟨h3, h5⟩ := ih (fun t ht => h t (by simp [ht])) (fun t ht => hs t (by simp [ht])) D1 h2 _ _ hg'
        refine ⟨fun s' hs' => ?_, h5⟩
        rcases List.mem_cons.1 hs' with rfl | hs'
        · exact h1
        · exact h3 _ hs'

theorem GenFine.map {α β : Type} {P : α → Prop} {Q : β → Prop} {g : Gen α} (h : GenFine P g) (f : α → β) (hf : ∀ a, P a → Q (f a)) :
    GenFine Q (g.map fun (a, D) => (f a, D)) := by
  intro b D he
  cases g with
  | none => cases he
  | some r =>
    obtain ⟨a, D1⟩ := r
    cases he
    exact ⟨hf a (h a _ rfl).1, (h a _ rfl).2⟩

theorem gen_fine (env : Env) (fuel : Nat) (t : Ty) : MakesFine env (gen env fuel) t := by
  induction fuel generalizing t with
  | zero => exact fun _ _ _ _ _ he => by cases he
  | succ fuel ih =>
    intro hs D hD
    have hm : ∀ u, MakesFine env (makeWith env (gen env fuel)) u := fun u => makeWith_fine env _ u (ih u)
    have hin : ∀ u, Inner env t u → Sized env u := fun u hu => hs.inner hu
    cases t with
    | prim p => intro a D' he; cases he; exact ⟨fine_prim p, hD⟩
    | vec t =>
      refine GenFine.map (hm t (hin _ (.vec _)) D hD) (fun s => Schema.items s false none) fun s h => ?_
      unfold Schema.Fine at h ⊢
      simp [Schema.fields, Json.properFields, Json.proper, h, optField]
    | arr n t =>
      refine GenFine.map (hm t (hin _ (.arr _ _)) D hD) (fun s => Schema.items s false (some n)) fun s h => ?_
      unfold Schema.Fine at h ⊢
      have hn := proper_nat ((hs _ .self).1 n t rfl)
      simp [Schema.fields, Json.properFields, h, optField, hn]
      simp [Json.proper, h]
    | set t =>
      refine GenFine.map (hm t (hin _ (.set _)) D hD) (fun s => Schema.items s true none) fun s h => ?_
      unfold Schema.Fine at h ⊢
      simp [Schema.fields, Json.properFields, Json.proper, h, optField]
    | map o t =>
      refine GenFine.map (hm t (hin _ (.map _ _)) D hD) _ fun s h => ?_
      unfold Schema.Fine at h ⊢
      simp [Schema.fields, Json.properFields, Json.proper, h]
    | dict t =>
      refine GenFine.map (hm _ (hin _ (.dict _)) D hD) (fun s => Schema.items s false none) fun s h => ?_
      unfold Schema.Fine at h ⊢
      simp [Schema.fields, Json.properFields, Json.proper, h, optField]
    | tuple ts =>
      refine GenFine.map (makesWith_fine env _ ts (fun u _ => hm u) (fun u hu => hin _ (.tuple _ _ hu)) D hD) _ fun ss h => ?_
      have hn := proper_nat ((hs _ .self).2 ts rfl)
      unfold Schema.Fine
      simp only [Schema.fields, Json.properFields, h.2, hn, Bool.and_true, Bool.and_eq_true, and_true]
      simp only [Json.proper, fine_jsons h.1, and_self]
    | variant ts =>
      refine GenFine.map (makesWith_fine env _ ts (fun u _ => hm u) (fun u hu => hin _ (.variant _ _ hu)) D hD) _ fun ss h => ?_
      unfold Schema.Fine
      simp [Schema.fields, Json.properFields, Json.proper, fine_jsons h.1]
    | cls c =>
      refine GenFine.map (visitWith_fine env _ (env.members c) (fun m _ => hm m.ty) (fun m hm => hin _ (.cls _ _ hm)) D hD) (fun r => Schema.object r.1 r.2) fun r h => ?_
      unfold Schema.Fine
      simp [Schema.fields, Json.properFields, Json.proper, fine_entries h, proper_strs]
    | uptr t => exact ih t (hin _ (.uptr _)) D hD
    | sptr t => exact ih t (hin _ (.sptr _)) D hD

theorem schemaDoc_proper (env : Env) (version : Option Str) (fuel : Nat) (t : Ty) (hs : Sized env t) (s : Schema) (D : Defs) (h : buildSchema env fuel t = some (s, D)) :
    (schemaDoc version D s).proper = true ∧ doubles (schemaDoc version D s) = [] := by
  obtain ⟨h1, h2⟩ := gen_fine env fuel t hs [] (fun p hp => absurd hp List.not_mem_nil) s D h
  unfold Schema.Fine at h1
  constructor
  · simp only [schemaDoc, Json.proper, properFields_append, h1, Bool.and_true, Bool.and_eq_true]
    refine ⟨by cases version <;> rfl, ?_⟩
    split
    · rfl
    · simp [optField, Json.properFields, Json.proper, fine_entries h2]
  · simp only [schemaDoc, doubles, doublesFields_append, schema_doubles, List.append_nil, List.append_eq_nil_iff]
    refine ⟨by cases version <;> rfl, ?_⟩
    split
    · rfl
    · simp [optField, doublesFields, doubles, entries_doubles]

end Verif.Core
