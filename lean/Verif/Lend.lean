import Verif.TextIO
import Verif.UnshareWrite

/-!
# Documents that refer to the memory of the value

`JsonSerializer<std::string_view>` and `JsonSerializer<char[N]>` call `SetString` without an allocator
(serialize_string.hpp:9-30), so that the document refers to the characters of the value; `std::string` is copied into
the memory of the document (32-42). In `ser` the three types are the same; here they are told apart.
-/

namespace Verif.Core
open Verif.Text

/-- A place in the declarations of a program where a type is written: the type of the variable, of member `i` of class `c`, and the
parts of types. -/
inductive Place
  | root
  | member (c i : Nat)
  | item (p : Place)
  | nth (p : Place) (i : Nat)
deriving DecidableEq

/-- The three string types (serialize_string.hpp). -/
inductive Storage
  | string
  | view
  | array
deriving DecidableEq

/-- Where `SetString` puts the characters: `char[N]` (serialize_string.hpp:14), `std::string_view` (24-27, a literal if it is empty),
`std::string` (39). -/
def Storage.home (st : Storage) (s : Str) : Home :=
  match st with
  | .string => .own
  | .view => if s = [] then .own else .argument
  | .array => .argument

/-- Leaves: strings as above. Base64 texts (serialize_bytes.hpp:22), dates and times (serialize_date.hpp:19, serialize_datetime.hpp:16)
are copied. Names of enumerators are not copied (serialize_enum.hpp:33-34), but refer to memory of the program, which exists for ever. -/
def lendPrim (st : Storage) (k : Prim) (j : Json) : Dom :=
  match k, j with
  | .str, .str s => .str s (st.home s)
  | _, j => Dom.of .own j

/-- `serEntries` (serialize_map.hpp:19-30); keys are copied (27). -/
def lendEntries : List (Str × (List Seg → STab → SRes Dom)) → List Seg → STab → SRes (List (Str × Home × Dom))
  | [], _, σ => .done σ (some [])
  | (k, f) :: rest, segs, σ =>
      match f (Seg.name k :: segs) σ with
      | .ub => .ub
      | .done σ' none => .done σ' none
      | .done σ' (some d) => (lendEntries rest segs σ').map ((k, .own, d) :: ·)

mutual
/-- `serialize(obj, json, context)` (serialize.hpp:23-28), see `ser`, with the places of the strings. `st` tells which of the string
types is used at a place. The texts of references are copied (serialize_pointer.hpp:46); the key `$ref` (50) and the names of members
(serialize_object.hpp:69-70) refer to memory of the program. -/
def lend (env : Env) (st : Place → Storage) : Val → Ty → Place → List Seg → STab → SRes Dom
  | .prim p, .prim k, pl, _, σ =>
      match serPrim env k p with
      | .ub => .ub
      | .fail => .done σ none
      | .ok j => .done σ (some (lendPrim (st pl) k j))
  | .seq vs, .vec t, pl, segs, σ => (lendSame env st vs t (.item pl) 0 segs σ).map .arr
  | .tup vs, .arr n t, pl, segs, σ =>
      if vs.length = n then (lendSame env st vs t (.item pl) 0 segs σ).map .arr else .ub
  | .tup vs, .tuple ts, pl, segs, σ => (lendItems env st vs ts pl 0 segs σ).map .arr
  | .set vs, .set t, pl, segs, σ => (lendSet env st vs t (.item pl) segs σ).map .arr
  | .map kvs, .map ordered t, pl, segs, σ =>
      (lendEntries (iterate env ordered segs (lendVals env st kvs t (.item pl))) segs σ).map .obj
  | .dict kvs, .dict t, pl, segs, σ => (lendEntries (lendVals env st kvs t (.item pl)) segs σ).map .obj
  | .alt i v, .variant ts, pl, segs, σ =>
      match ts[i]? with
      | some t => lend env st v t (.nth pl i) segs σ
      | none => .ub
  | .obj vs, .cls c, _, segs, σ => (lendMembers env st vs (env.members c) c 0 segs σ).map .obj
  | .uptr v, .uptr t, pl, segs, σ => lend env st v t (.item pl) segs σ
  | .sptr a v, .sptr t, pl, segs, σ =>
      match σ.get a with
      | some s => .done σ (some (.obj [(lit "$ref", .own, .str (pathStr s) .own)]))
      | none =>
          match lend env st v t (.item pl) segs σ with
          | .ub => .ub
          | .done σ' none => .done σ' none
          | .done σ' (some d) => .done (σ'.put a segs) (some d)
  | _, _, _, _, _ => .ub

/-- Elements of a vector or array (serialize_vector.hpp:19-28, serialize_array.hpp:19-28). -/
def lendSame (env : Env) (st : Place → Storage) : List Val → Ty → Place → Nat → List Seg → STab → SRes (List Dom)
  | [], _, _, _, _, σ => .done σ (some [])
  | v :: vs, t, pl, k, segs, σ =>
      match lend env st v t pl (.index k :: segs) σ with
      | .ub => .ub
      | .done σ' none => .done σ' none
      | .done σ' (some d) => (lendSame env st vs t pl (k + 1) segs σ').map (d :: ·)

/-- Components of a tuple (serialize_tuple.hpp:26-44). -/
def lendItems (env : Env) (st : Place → Storage) : List Val → List Ty → Place → Nat → List Seg → STab → SRes (List Dom)
  | [], [], _, _, _, σ => .done σ (some [])
  | v :: vs, t :: ts, pl, k, segs, σ =>
      match lend env st v t (.nth pl k) (.index k :: segs) σ with
      | .ub => .ub
      | .done σ' none => .done σ' none
      | .done σ' (some d) => (lendItems env st vs ts pl (k + 1) segs σ').map (d :: ·)
  | _, _, _, _, _, _ => .ub

/-- Elements of a set (serialize_set.hpp:19-28). -/
def lendSet (env : Env) (st : Place → Storage) : List Val → Ty → Place → List Seg → STab → SRes (List Dom)
  | [], _, _, _, σ => .done σ (some [])
  | v :: vs, t, pl, segs, σ =>
      match lend env st v t pl segs σ with
      | .ub => .ub
      | .done σ' none => .done σ' none
      | .done σ' (some d) => (lendSet env st vs t pl segs σ').map (d :: ·)

/-- Values of a map (serialize_map.hpp:19-30). -/
def lendVals (env : Env) (st : Place → Storage) : List (Str × Val) → Ty → Place → List (Str × (List Seg → STab → SRes Dom))
  | [], _, _ => []
  | (k, v) :: kvs, t, pl => (k, lend env st v t pl) :: lendVals env st kvs t pl

/-- Members of a class, `i` is the position of the first (serialize_object.hpp:20-72). -/
def lendMembers (env : Env) (st : Place → Storage) :
    List Val → List Member → Nat → Nat → List Seg → STab → SRes (List (Str × Home × Dom))
  | [], [], _, _, _, σ => .done σ (some [])
  | v :: vs, m :: ms, c, i, segs, σ =>
      match m.kind, v with
      | .optional, .absent => lendMembers env st vs ms c (i + 1) segs σ
      | .optional, .present w =>
          (match lend env st w m.ty (.member c i) (Seg.name m.name :: segs) σ with
          | .ub => .ub
          | .done σ' none => lendMembers env st vs ms c (i + 1) segs σ'
          | .done σ' (some d) => (lendMembers env st vs ms c (i + 1) segs σ').map ((m.name, .own, d) :: ·))
      | .optional, _ => .ub
      | _, v =>
          (match lend env st v m.ty (.member c i) (Seg.name m.name :: segs) σ with
          | .ub => .ub
          | .done σ' none => lendMembers env st vs ms c (i + 1) segs σ'
          | .done σ' (some d) => (lendMembers env st vs ms c (i + 1) segs σ').map ((m.name, .own, d) :: ·))
  | _, _, _, _, _, _ => .ub
end

/-- `serialize_to_document` (serialize.hpp:33-52) with the places of the strings. -/
def lendDocument (env : Env) (st : Place → Storage) (t : Ty) (v : Val) : Option (Option Dom) :=
  match lend env st v t .root [] [] with
  | .ub => none
  | .done _ r => some r

/-! ## Forgetting the places -/

end Verif.Core

namespace Verif.Text
open Verif.Core

mutual
/-- The document. -/
def Dom.json : Dom → Json
  | .null => .null
  | .bool b => .bool b
  | .num n => .num n
  | .str s _ => .str s
  | .arr ds => .arr (Dom.jsons ds)
  | .obj ms => .obj (Dom.fields ms)

/-- Elements. -/
def Dom.jsons : List Dom → List Json
  | [] => []
  | d :: ds => Dom.json d :: Dom.jsons ds

/-- Members. -/
def Dom.fields : List (Str × Home × Dom) → List (Str × Json)
  | [] => []
  | (k, _, d) :: ms => (k, Dom.json d) :: Dom.fields ms
end

mutual
/-- Some string or key is not in memory of the document. -/
def Dom.lent : Dom → Bool
  | .str _ h => decide (h = .argument)
  | .arr ds => Dom.lents ds
  | .obj ms => Dom.lentFields ms
  | _ => false

/-- `Dom.lent` for elements. -/
def Dom.lents : List Dom → Bool
  | [] => false
  | d :: ds => Dom.lent d || Dom.lents ds

/-- `Dom.lent` for members. -/
def Dom.lentFields : List (Str × Home × Dom) → Bool
  | [] => false
  | (_, h, d) :: ms => decide (h = .argument) || Dom.lent d || Dom.lentFields ms
end

mutual
theorem view_live : ∀ d : Dom, d.view true = some d.json
  | .null => rfl
  | .bool _ => rfl
  | .num _ => rfl
  | .str s h => by simp [Dom.view, Dom.json]
  | .arr ds => by simp [Dom.view, Dom.json, viewAll_live ds]
  | .obj ms => by simp [Dom.view, Dom.json, viewFields_live ms]

theorem viewAll_live : ∀ ds : List Dom, Dom.viewAll true ds = some (Dom.jsons ds)
  | [] => rfl
  | d :: ds => by simp [Dom.viewAll, Dom.jsons, view_live d, viewAll_live ds]

theorem viewFields_live : ∀ ms : List (Str × Home × Dom), Dom.viewFields true ms = some (Dom.fields ms)
  | [] => rfl
  | (k, h, d) :: ms => by simp [Dom.viewFields, Dom.fields, view_live d, viewFields_live ms]
end

mutual
theorem view_dead : ∀ d : Dom, d.view false = if d.lent then none else some d.json
  | .null => rfl
  | .bool _ => rfl
  | .num _ => rfl
  | .str s h => by cases h <;> simp [Dom.view, Dom.json, Dom.lent]
  | .arr ds => by
    simp only [Dom.view, Dom.json, Dom.lent, viewAll_dead ds]
    by_cases h : Dom.lents ds = true <;> simp [h]
  | .obj ms => by
    simp only [Dom.view, Dom.json, Dom.lent, viewFields_dead ms]
    by_cases h : Dom.lentFields ms = true <;> simp [h]

theorem viewAll_dead : ∀ ds : List Dom, Dom.viewAll false ds = if Dom.lents ds then none else some (Dom.jsons ds)
  | [] => rfl
  | d :: ds => by
    simp only [Dom.viewAll, Dom.jsons, Dom.lents, view_dead d, viewAll_dead ds]
    by_cases h : Dom.lent d = true <;> by_cases h' : Dom.lents ds = true <;> simp [h, h']

theorem viewFields_dead : ∀ ms : List (Str × Home × Dom),
    Dom.viewFields false ms = if Dom.lentFields ms then none else some (Dom.fields ms)
  | [] => rfl
  | (k, h, d) :: ms => by
    simp only [Dom.viewFields, Dom.fields, Dom.lentFields, view_dead d, viewFields_dead ms]
    cases h <;> by_cases h : Dom.lent d = true <;> by_cases h' : Dom.lentFields ms = true <;> simp [h, h']
end

mutual
theorem json_of (h : Home) : ∀ j, (Dom.of h j).json = j
  | .null => rfl
  | .bool _ => rfl
  | .num _ => rfl
  | .str s => rfl
  | .arr js => by simp [Dom.of, Dom.json, jsons_of h js]
  | .obj ms => by simp [Dom.of, Dom.json, fields_of h ms]

theorem jsons_of (h : Home) : ∀ js, Dom.jsons (Dom.ofAll h js) = js
  | [] => rfl
  | j :: js => by simp [Dom.ofAll, Dom.jsons, json_of h j, jsons_of h js]

theorem fields_of (h : Home) : ∀ ms, Dom.fields (Dom.ofFields h ms) = ms
  | [] => rfl
  | (k, j) :: ms => by simp [Dom.ofFields, Dom.fields, json_of h j, fields_of h ms]
end

mutual
theorem lent_own : ∀ j, (Dom.of .own j).lent = false
  | .null => rfl
  | .bool _ => rfl
  | .num _ => rfl
  | .str s => rfl
  | .arr js => by simp [Dom.of, Dom.lent, lents_own js]
  | .obj ms => by simp [Dom.of, Dom.lent, lentFields_own ms]

theorem lents_own : ∀ js, Dom.lents (Dom.ofAll .own js) = false
  | [] => rfl
  | j :: js => by simp [Dom.ofAll, Dom.lents, lent_own j, lents_own js]

theorem lentFields_own : ∀ ms, Dom.lentFields (Dom.ofFields .own ms) = false
  | [] => rfl
  | (k, j) :: ms => by simp [Dom.ofFields, Dom.lentFields, lent_own j, lentFields_own ms]
end

end Verif.Text

namespace Verif.Core
open Verif.Text

theorem json_lendPrim (st : Storage) (k : Prim) (j : Json) : (lendPrim st k j).json = j := by
  unfold lendPrim
  split
  · rfl
  · exact json_of _ _

theorem SRes.map_map {α β γ : Type} (f : α → β) (g : β → γ) (r : SRes α) : (r.map f).map g = r.map (fun a => g (f a)) := by
  cases r with
  | ub => rfl
  | done σ r => cases r <;> rfl

theorem lendVals_eq (env : Env) (st : Place → Storage) (kvs : List (Str × Val)) (t : Ty) (pl : Place) :
    lendVals env st kvs t pl = kvs.map fun p => (p.1, lend env st p.2 t pl) := by
  induction kvs with
  | nil => simp [lendVals]
  | cons p kvs ih => cases p; simp [lendVals, ih]

/-- The serializer of documents with places is that of documents. -/
def LendSer (env : Env) (st : Place → Storage) (v : Val) : Prop :=
  ∀ t pl segs σ, (lend env st v t pl segs σ).map Dom.json = ser env v t segs σ

theorem lendEntries_json (env : Env) (st : Place → Storage) (t : Ty) (pl : Place) :
    ∀ (kvs : List (Str × Val)), (∀ p ∈ kvs, LendSer env st p.2) →
    ∀ segs σ, (lendEntries (kvs.map fun p => (p.1, lend env st p.2 t pl)) segs σ).map Dom.fields
      = serEntries (kvs.map fun p => (p.1, ser env p.2 t)) segs σ := by
  intro kvs
  induction kvs with
  | nil => intro _ segs σ; rfl
  | cons p kvs ih =>
    intro h segs σ
    simp only [List.map_cons, lendEntries, serEntries, ← h p (by simp) t pl]
    cases lend env st p.2 t pl (Seg.name p.1 :: segs) σ with
    | ub => rfl
    | done σ' r =>
      cases r with
      | none => rfl
      | some d =>
        simp only [SRes.map, Option.map_some]
        rw [← ih (fun q hq => h q (by simp [hq]))]
        cases lendEntries (kvs.map fun p => (p.1, lend env st p.2 t pl)) segs σ' with
        | ub => rfl
        | done σ'' r => cases r <;> rfl

theorem lendSame_json (env : Env) (st : Place → Storage) (t : Ty) (pl : Place) : ∀ (vs : List Val), (∀ v ∈ vs, LendSer env st v) →
    ∀ k segs σ, (lendSame env st vs t pl k segs σ).map Dom.jsons = serItems env vs (List.replicate vs.length t) k segs σ := by
  intro vs
  induction vs with
  | nil => intro _ k segs σ; rfl
  | cons v vs ih =>
    intro h k segs σ
    simp only [lendSame, List.length_cons, List.replicate_succ, serItems, ← h v (by simp) t pl]
    cases lend env st v t pl (.index k :: segs) σ with
    | ub => rfl
    | done σ' r =>
      cases r with
      | none => rfl
      | some d =>
        simp only [SRes.map, Option.map_some]
        rw [← ih (fun w hw => h w (by simp [hw])) (k + 1) segs σ']
        cases lendSame env st vs t pl (k + 1) segs σ' with
        | ub => rfl
        | done σ'' r => cases r <;> rfl

theorem lendItems_json (env : Env) (st : Place → Storage) (pl : Place) : ∀ (vs : List Val) (ts : List Ty), (∀ v ∈ vs, LendSer env st v) →
    ∀ k segs σ, (lendItems env st vs ts pl k segs σ).map Dom.jsons = serItems env vs ts k segs σ := by
  intro vs
  induction vs with
  | nil => intro ts _ k segs σ; cases ts <;> rfl
  | cons v vs ih =>
    intro ts h k segs σ
    cases ts with
    | nil => rfl
    | cons t ts =>
      simp only [lendItems, serItems, ← h v (by simp) t (.nth pl k)]
      cases lend env st v t (.nth pl k) (.index k :: segs) σ with
      | ub => rfl
      | done σ' r =>
        cases r with
        | none => rfl
        | some d =>
          simp only [SRes.map, Option.map_some]
          rw [← ih ts (fun w hw => h w (by simp [hw])) (k + 1) segs σ']
          cases lendItems env st vs ts pl (k + 1) segs σ' with
          | ub => rfl
          | done σ'' r => cases r <;> rfl

theorem lendSet_json (env : Env) (st : Place → Storage) (t : Ty) (pl : Place) : ∀ (vs : List Val), (∀ v ∈ vs, LendSer env st v) →
    ∀ segs σ, (lendSet env st vs t pl segs σ).map Dom.jsons = serSet env vs t segs σ := by
  intro vs
  induction vs with
  | nil => intro _ segs σ; rfl
  | cons v vs ih =>
    intro h segs σ
    simp only [lendSet, serSet, ← h v (by simp) t pl]
    cases lend env st v t pl segs σ with
    | ub => rfl
    | done σ' r =>
      cases r with
      | none => rfl
      | some d =>
        simp only [SRes.map, Option.map_some]
        rw [← ih (fun w hw => h w (by simp [hw])) segs σ']
        cases lendSet env st vs t pl segs σ' with
        | ub => rfl
        | done σ'' r => cases r <;> rfl

/-- `lendMembers` for one more member. -/
theorem lendMembers_cons (env : Env) (st : Place → Storage) (v : Val) (vs : List Val) (m : Member) (ms : List Member) (c i : Nat)
    (segs : List Seg) (σ : STab) :
    lendMembers env st (v :: vs) (m :: ms) c i segs σ =
      match fieldOf m.kind v with
      | .skip => lendMembers env st vs ms c (i + 1) segs σ
      | .bad => .ub
      | .here w =>
          match lend env st w m.ty (.member c i) (Seg.name m.name :: segs) σ with
          | .ub => .ub
          | .done σ' none => lendMembers env st vs ms c (i + 1) segs σ'
          | .done σ' (some d) => (lendMembers env st vs ms c (i + 1) segs σ').map ((m.name, .own, d) :: ·) := by
  rw [lendMembers.eq_def]
  rcases hk : m.kind with _ | _ | _
  · simp only [hk, fieldOf]
  · cases v <;> simp only [hk, fieldOf]
  · simp only [hk, fieldOf]

theorem lendMembers_json (env : Env) (st : Place → Storage) (c : Nat) : ∀ (vs : List Val) (ms : List Member),
    (∀ w, sizeOf w < 1 + sizeOf vs → LendSer env st w) →
    ∀ i segs σ, (lendMembers env st vs ms c i segs σ).map Dom.fields = serMembers env vs ms segs σ := by
  intro vs
  induction vs with
  | nil => intro ms _ i segs σ; cases ms <;> rfl
  | cons v vs ih =>
    intro ms h i segs σ
    cases ms with
    | nil => rfl
    | cons m ms =>
      have hrest := ih ms (fun w hw => h w (by simp at hw ⊢; omega)) (i + 1) segs
      rw [lendMembers_cons, serMembers_cons]
      cases hf : fieldOf m.kind v with
      | skip => exact hrest σ
      | bad => rfl
      | here w =>
        have hw := fieldOf_size hf
        simp only [← h w (by simp; omega) m.ty (.member c i)]
        cases lend env st w m.ty (.member c i) (Seg.name m.name :: segs) σ with
        | ub => rfl
        | done σ' r =>
          cases r with
          | none => exact hrest σ'
          | some d =>
            simp only [SRes.map, Option.map_some]
            rw [← hrest σ']
            cases lendMembers env st vs ms c (i + 1) segs σ' with
            | ub => rfl
            | done σ'' r => cases r <;> rfl

theorem lend_json (env : Env) (st : Place → Storage) : ∀ v, LendSer env st v := by
  refine Val.strong ?_
  intro v ih t pl segs σ
  have hv : ∀ vs : List Val, sizeOf vs < sizeOf v → ∀ w ∈ vs, LendSer env st w := by
    intro vs hvs w hw
    exact ih w (by have := mem_size hw; omega)
  have hkv : ∀ kvs : List (Str × Val), sizeOf kvs < sizeOf v → ∀ p ∈ kvs, LendSer env st p.2 := by
    intro kvs hkvs p hp
    exact ih p.2 (by have := mem_size_kv hp; omega)
  cases v with
  | prim p =>
    cases t with
    | prim k =>
      simp only [lend, ser]
      cases serPrim env k p <;> simp [SRes.map, json_lendPrim]
    | _ => rfl
  | seq vs =>
    cases t with
    | vec t =>
      simp only [lend, ser, ← lendSame_json env st t (.item pl) vs (hv vs (by simp +arith)) 0 segs σ, SRes.map_map]
      rfl
    | _ => rfl
  | tup vs =>
    cases t with
    | arr n t =>
      simp only [lend, ser]
      by_cases hn : vs.length = n
      · subst hn
        simp only [if_true, ← lendSame_json env st t (.item pl) vs (hv vs (by simp +arith)) 0 segs σ, SRes.map_map]
        rfl
      · simp [hn, SRes.map]
    | tuple ts =>
      simp only [lend, ser, ← lendItems_json env st pl vs ts (hv vs (by simp +arith)) 0 segs σ, SRes.map_map]
      rfl
    | _ => rfl
  | set vs =>
    cases t with
    | set t =>
      simp only [lend, ser, ← lendSet_json env st t (.item pl) vs (hv vs (by simp +arith)) segs σ, SRes.map_map]
      rfl
    | _ => rfl
  | map kvs =>
    cases t with
    | map o t =>
      simp only [lend, ser, lendVals_eq, serVals_eq, iterate_map env o segs (fun p => lend env st p.2 t (.item pl)),
        iterate_map env o segs (fun p => ser env p.2 t), SRes.map_map]
      rw [← lendEntries_json env st t (.item pl) _ (fun p hp => hkv kvs (by simp +arith) p (of_iterate hp)), SRes.map_map]
      rfl
    | _ => rfl
  | dict kvs =>
    cases t with
    | dict t =>
      simp only [lend, ser, lendVals_eq, serVals_eq, SRes.map_map]
      rw [← lendEntries_json env st t (.item pl) _ (fun p hp => hkv kvs (by simp +arith) p hp), SRes.map_map]
      rfl
    | _ => rfl
  | alt i v =>
    cases t with
    | variant ts =>
      simp only [lend, ser]
      cases ts[i]? with
      | none => rfl
      | some t => exact ih v (by simp +arith) t _ segs σ
    | _ => rfl
  | obj vs =>
    cases t with
    | cls c =>
      simp only [lend, ser, ← lendMembers_json env st c vs (env.members c) (fun w hw => ih w (by simp; omega)) 0 segs σ, SRes.map_map]
      rfl
    | _ => rfl
  | absent => cases t <;> rfl
  | present v => cases t <;> rfl
  | nullptr => cases t <;> rfl
  | uptr v =>
    cases t with
    | uptr t => simp only [lend, ser]; exact ih v (by simp +arith) t _ segs σ
    | _ => rfl
  | sptr a v =>
    cases t with
    | sptr t =>
      simp only [lend, ser, ← ih v (by simp +arith) t (.item pl) segs σ]
      cases σ.get a with
      | some s => rfl
      | none =>
        cases lend env st v t (.item pl) segs σ with
        | ub => rfl
        | done σ' r => cases r <;> rfl
    | _ => rfl

end Verif.Core

namespace Verif.Core
open Verif.Text

/-! ## Which values lend their memory -/

/-- Some string of the value is a view that is not empty or an array of characters. -/
inductive Lends (env : Env) (st : Place → Storage) : Val → Ty → Place → Prop
  | view {s : Str} {pl : Place} : st pl = .view → s ≠ [] → Lends env st (.prim (.str s)) (.prim .str) pl
  | array {s : Str} {pl : Place} : st pl = .array → Lends env st (.prim (.str s)) (.prim .str) pl
  | vec {vs : List Val} {t : Ty} {pl : Place} {v : Val} : v ∈ vs → Lends env st v t (.item pl) → Lends env st (.seq vs) (.vec t) pl
  | arr {vs : List Val} {n : Nat} {t : Ty} {pl : Place} {v : Val} :
      v ∈ vs → Lends env st v t (.item pl) → Lends env st (.tup vs) (.arr n t) pl
  | set {vs : List Val} {t : Ty} {pl : Place} {v : Val} : v ∈ vs → Lends env st v t (.item pl) → Lends env st (.set vs) (.set t) pl
  | tuple {vs : List Val} {ts : List Ty} {pl : Place} {i : Nat} {v : Val} {t : Ty} :
      vs[i]? = some v → ts[i]? = some t → Lends env st v t (.nth pl i) → Lends env st (.tup vs) (.tuple ts) pl
  | map {kvs : List (Str × Val)} {o : Bool} {t : Ty} {pl : Place} {p : Str × Val} :
      p ∈ kvs → Lends env st p.2 t (.item pl) → Lends env st (.map kvs) (.map o t) pl
  | dict {kvs : List (Str × Val)} {t : Ty} {pl : Place} {p : Str × Val} :
      p ∈ kvs → Lends env st p.2 t (.item pl) → Lends env st (.dict kvs) (.dict t) pl
  | variant {ts : List Ty} {i : Nat} {v : Val} {t : Ty} {pl : Place} :
      ts[i]? = some t → Lends env st v t (.nth pl i) → Lends env st (.alt i v) (.variant ts) pl
  | member {vs : List Val} {c i : Nat} {pl : Place} {v : Val} {m : Member} :
      vs[i]? = some v → (env.members c)[i]? = some m → m.kind ≠ .optional → Lends env st v m.ty (.member c i) →
      Lends env st (.obj vs) (.cls c) pl
  | optional {vs : List Val} {c i : Nat} {pl : Place} {v : Val} {m : Member} :
      vs[i]? = some (.present v) → (env.members c)[i]? = some m → m.kind = .optional → Lends env st v m.ty (.member c i) →
      Lends env st (.obj vs) (.cls c) pl
  | uptr {v : Val} {t : Ty} {pl : Place} : Lends env st v t (.item pl) → Lends env st (.uptr v) (.uptr t) pl
  | sptr {a : Nat} {v : Val} {t : Ty} {pl : Place} : Lends env st v t (.item pl) → Lends env st (.sptr a v) (.sptr t) pl

theorem SRes.map_eq {α β : Type} {f : α → β} {r : SRes α} {σ : STab} {b : β} (h : r.map f = .done σ (some b)) :
    ∃ a, r = .done σ (some a) ∧ b = f a := by
  cases r with
  | ub => cases h
  | done σ' r =>
    cases r with
    | none => cases h
    | some a => cases h; exact ⟨a, rfl, rfl⟩

/-- What the document borrows, the value lends. -/
def Honest (env : Env) (st : Place → Storage) (v : Val) : Prop :=
  ∀ t pl segs σ σ' d, lend env st v t pl segs σ = .done σ' (some d) → d.lent = true → Lends env st v t pl

section
variable (env : Env) (st : Place → Storage)

theorem lendPrim_lent {s : Storage} {k : Prim} {j : Json} (h : (lendPrim s k j).lent = true) :
    k = .str ∧ ∃ w, j = .str w ∧ ((s = .view ∧ w ≠ []) ∨ s = .array) := by
  unfold lendPrim at h
  split at h
  · rename_i w
    refine ⟨rfl, w, rfl, ?_⟩
    cases s with
    | string => simp [Dom.lent, Storage.home] at h
    | view =>
      by_cases hw : w = []
      · simp [Dom.lent, Storage.home, hw] at h
      · exact .inl ⟨rfl, hw⟩
    | array => exact .inr rfl
  · rw [lent_own] at h; cases h

theorem honest_same (t : Ty) (pl : Place) : ∀ (vs : List Val), (∀ v ∈ vs, Honest env st v) → ∀ k segs σ σ' ds,
    lendSame env st vs t pl k segs σ = .done σ' (some ds) → Dom.lents ds = true → ∃ v ∈ vs, Lends env st v t pl := by
  intro vs
  induction vs with
  | nil =>
    intro _ k segs σ σ' ds h hd
    simp only [lendSame, SRes.done.injEq, Option.some.injEq] at h
    obtain ⟨-, rfl⟩ := h
    cases hd
  | cons v vs ih =>
    intro hv k segs σ σ' ds h hd
    simp only [lendSame] at h
    split at h
    · cases h
    · cases h
    · rename_i σ1 d h1
      obtain ⟨ds', h2, rfl⟩ := SRes.map_eq h
      simp only [Dom.lents, Bool.or_eq_true] at hd
      rcases hd with hd | hd
      · exact ⟨v, by simp, hv v (by simp) t pl _ _ _ _ h1 hd⟩
      · obtain ⟨w, hw, hl⟩ := ih (fun w hw => hv w (by simp [hw])) _ _ _ _ _ h2 hd
        exact ⟨w, by simp [hw], hl⟩

theorem honest_set (t : Ty) (pl : Place) : ∀ (vs : List Val), (∀ v ∈ vs, Honest env st v) → ∀ segs σ σ' ds,
    lendSet env st vs t pl segs σ = .done σ' (some ds) → Dom.lents ds = true → ∃ v ∈ vs, Lends env st v t pl := by
  intro vs
  induction vs with
  | nil =>
    intro _ segs σ σ' ds h hd
    simp only [lendSet, SRes.done.injEq, Option.some.injEq] at h
    obtain ⟨-, rfl⟩ := h
    cases hd
  | cons v vs ih =>
    intro hv segs σ σ' ds h hd
    simp only [lendSet] at h
    split at h
    · cases h
    · cases h
    · rename_i σ1 d h1
      obtain ⟨ds', h2, rfl⟩ := SRes.map_eq h
      simp only [Dom.lents, Bool.or_eq_true] at hd
      rcases hd with hd | hd
      · exact ⟨v, by simp, hv v (by simp) t pl _ _ _ _ h1 hd⟩
      · obtain ⟨w, hw, hl⟩ := ih (fun w hw => hv w (by simp [hw])) _ _ _ _ h2 hd
        exact ⟨w, by simp [hw], hl⟩

theorem honest_items (pl : Place) : ∀ (vs : List Val) (ts : List Ty), (∀ v ∈ vs, Honest env st v) → ∀ k segs σ σ' ds,
    lendItems env st vs ts pl k segs σ = .done σ' (some ds) → Dom.lents ds = true →
    ∃ i v t, vs[i]? = some v ∧ ts[i]? = some t ∧ Lends env st v t (.nth pl (k + i)) := by
  intro vs
  induction vs with
  | nil =>
    intro ts _ k segs σ σ' ds h hd
    cases ts with
    | nil =>
      simp only [lendItems, SRes.done.injEq, Option.some.injEq] at h
      obtain ⟨-, rfl⟩ := h
      cases hd
    | cons t ts => simp [lendItems] at h
  | cons v vs ih =>
    intro ts hv k segs σ σ' ds h hd
    cases ts with
    | nil => simp [lendItems] at h
    | cons t ts =>
      simp only [lendItems] at h
      split at h
      · cases h
      · cases h
      · rename_i σ1 d h1
        obtain ⟨ds', h2, rfl⟩ := SRes.map_eq h
        simp only [Dom.lents, Bool.or_eq_true] at hd
        rcases hd with hd | hd
        · exact ⟨0, v, t, rfl, rfl, hv v (by simp) t _ _ _ _ _ h1 hd⟩
        · obtain ⟨i, w, u, hi, hu, hl⟩ := ih ts (fun w hw => hv w (by simp [hw])) _ _ _ _ _ h2 hd
          exact ⟨i + 1, w, u, hi, hu, by rwa [show k + (i + 1) = k + 1 + i by omega]⟩

theorem honest_entries (t : Ty) (pl : Place) : ∀ (kvs : List (Str × Val)), (∀ p ∈ kvs, Honest env st p.2) → ∀ segs σ σ' ms,
    lendEntries (kvs.map fun p => (p.1, lend env st p.2 t pl)) segs σ = .done σ' (some ms) → Dom.lentFields ms = true →
    ∃ p ∈ kvs, Lends env st p.2 t pl := by
  intro kvs
  induction kvs with
  | nil =>
    intro _ segs σ σ' ds h hd
    simp only [List.map_nil, lendEntries, SRes.done.injEq, Option.some.injEq] at h
    obtain ⟨-, rfl⟩ := h
    cases hd
  | cons p kvs ih =>
    intro hv segs σ σ' ds h hd
    simp only [List.map_cons, lendEntries] at h
    split at h
    · cases h
    · cases h
    · rename_i σ1 d h1
      obtain ⟨ds', h2, rfl⟩ := SRes.map_eq h
      simp only [Dom.lentFields, Bool.or_eq_true, reduceCtorEq, decide_false, Bool.false_eq_true, false_or] at hd
      rcases hd with hd | hd
      · exact ⟨p, by simp, hv p (by simp) t pl _ _ _ _ h1 hd⟩
      · obtain ⟨w, hw, hl⟩ := ih (fun w hw => hv w (by simp [hw])) _ _ _ _ h2 hd
        exact ⟨w, by simp [hw], hl⟩

theorem honest_members (c : Nat) : ∀ (vs : List Val) (ms : List Member), (∀ w, sizeOf w < 1 + sizeOf vs → Honest env st w) →
    ∀ k segs σ σ' ds, lendMembers env st vs ms c k segs σ = .done σ' (some ds) → Dom.lentFields ds = true →
    ∃ i v m w, vs[i]? = some v ∧ ms[i]? = some m ∧ fieldOf m.kind v = .here w ∧ Lends env st w m.ty (.member c (k + i)) := by
  intro vs
  induction vs with
  | nil =>
    intro ms _ k segs σ σ' ds h hd
    cases ms with
    | nil =>
      simp only [lendMembers, SRes.done.injEq, Option.some.injEq] at h
      obtain ⟨-, rfl⟩ := h
      cases hd
    | cons m ms => simp [lendMembers] at h
  | cons v vs ih =>
    intro ms hv k segs σ σ' ds h hd
    cases ms with
    | nil => simp [lendMembers] at h
    | cons m ms =>
      have rest : ∀ σ σ' ds, lendMembers env st vs ms c (k + 1) segs σ = .done σ' (some ds) → Dom.lentFields ds = true →
          ∃ i v' m' w, (v :: vs)[i]? = some v' ∧ (m :: ms)[i]? = some m' ∧ fieldOf m'.kind v' = .here w ∧
            Lends env st w m'.ty (.member c (k + i)) := by
        intro σ σ' ds h hd
        obtain ⟨i, w, m', u, hi, hm, hf, hl⟩ := ih ms (fun w hw => hv w (by simp at hw ⊢; omega)) _ _ _ _ _ h hd
        exact ⟨i + 1, w, m', u, hi, hm, hf, by rwa [show k + (i + 1) = k + 1 + i by omega]⟩
      rw [lendMembers_cons] at h
      cases hf : fieldOf m.kind v with
      | skip => rw [hf] at h; exact rest _ _ _ h hd
      | bad => rw [hf] at h; cases h
      | here w =>
        rw [hf] at h
        simp only at h
        have hw := fieldOf_size hf
        split at h
        · cases h
        · exact rest _ _ _ h hd
        · rename_i σ1 d h1
          obtain ⟨ds', h2, rfl⟩ := SRes.map_eq h
          simp only [Dom.lentFields, Bool.or_eq_true, reduceCtorEq, decide_false, Bool.false_eq_true, false_or] at hd
          rcases hd with hd | hd
          · exact ⟨0, v, m, w, rfl, rfl, hf, hv w (by simp; omega) m.ty _ _ _ _ _ h1 hd⟩
          · exact rest _ _ _ h2 hd

theorem Lends.of_field {vs : List Val} {c i : Nat} {pl : Place} {v w : Val} {m : Member} (hi : vs[i]? = some v)
    (hm : (env.members c)[i]? = some m) (hf : fieldOf m.kind v = .here w) (h : Lends env st w m.ty (.member c i)) :
    Lends env st (.obj vs) (.cls c) pl := by
  rcases fieldOf_here hf with ⟨hk, rfl⟩ | ⟨hk, rfl⟩
  · exact .optional hi hm hk h
  · exact .member hi hm hk h

theorem lend_honest : ∀ v, Honest env st v := by
  refine Val.strong ?_
  intro v ih t pl segs σ σ' d h hd
  have hv : ∀ vs : List Val, sizeOf vs < sizeOf v → ∀ w ∈ vs, Honest env st w := by
    intro vs hvs w hw
    exact ih w (by have := mem_size hw; omega)
  have hkv : ∀ kvs : List (Str × Val), sizeOf kvs < sizeOf v → ∀ p ∈ kvs, Honest env st p.2 := by
    intro kvs hkvs p hp
    exact ih p.2 (by have := mem_size_kv hp; omega)
  unfold lend at h
  split at h
  · rename_i p k
    split at h
    · cases h
    · cases h
    · rename_i j hj
      simp only [SRes.done.injEq, Option.some.injEq] at h
      obtain ⟨-, rfl⟩ := h
      obtain ⟨rfl, w, rfl, hs⟩ := lendPrim_lent hd
      have hp : p = .str w := by
        cases p <;> simp [serPrim] at hj
        rw [hj]
      subst hp
      rcases hs with ⟨h1, h2⟩ | h1
      · exact .view h1 h2
      · exact .array h1
  · obtain ⟨ds, h1, rfl⟩ := SRes.map_eq h
    obtain ⟨w, hw, hl⟩ := honest_same env st _ _ _ (hv _ (by simp +arith)) _ _ _ _ _ h1 hd
    exact .vec hw hl
  · split at h
    · obtain ⟨ds, h1, rfl⟩ := SRes.map_eq h
      obtain ⟨w, hw, hl⟩ := honest_same env st _ _ _ (hv _ (by simp +arith)) _ _ _ _ _ h1 hd
      exact .arr hw hl
    · cases h
  · obtain ⟨ds, h1, rfl⟩ := SRes.map_eq h
    obtain ⟨i, w, u, hi, hu, hl⟩ := honest_items env st _ _ _ (hv _ (by simp +arith)) _ _ _ _ _ h1 hd
    rw [Nat.zero_add] at hl
    exact .tuple hi hu hl
  · obtain ⟨ds, h1, rfl⟩ := SRes.map_eq h
    obtain ⟨w, hw, hl⟩ := honest_set env st _ _ _ (hv _ (by simp +arith)) _ _ _ _ h1 hd
    exact .set hw hl
  · rename_i kvs o t
    obtain ⟨ds, h1, rfl⟩ := SRes.map_eq h
    rw [lendVals_eq, iterate_map env o segs (fun p => lend env st p.2 t (.item pl))] at h1
    obtain ⟨w, hw, hl⟩ := honest_entries env st _ _ _ (fun p hp => hkv kvs (by simp +arith) p (of_iterate hp)) _ _ _ _ h1 hd
    exact .map (of_iterate hw) hl
  · rename_i kvs t
    obtain ⟨ds, h1, rfl⟩ := SRes.map_eq h
    rw [lendVals_eq] at h1
    obtain ⟨w, hw, hl⟩ := honest_entries env st _ _ _ (fun p hp => hkv kvs (by simp +arith) p hp) _ _ _ _ h1 hd
    exact .dict hw hl
  · split at h
    · rename_i t ht
      exact .variant ht (ih _ (by simp +arith) _ _ _ _ _ _ h hd)
    · cases h
  · obtain ⟨ds, h1, rfl⟩ := SRes.map_eq h
    obtain ⟨i, w, m, u, hi, hm, hf, hl⟩ := honest_members env st _ _ _ (fun w hw => ih w (by simp; omega)) _ _ _ _ _ h1 hd
    rw [Nat.zero_add] at hl
    exact .of_field env st hi hm hf hl
  · exact .uptr (ih _ (by simp +arith) _ _ _ _ _ _ h hd)
  · split at h
    · simp only [SRes.done.injEq, Option.some.injEq] at h
      obtain ⟨-, rfl⟩ := h
      simp [Dom.lent, Dom.lentFields] at hd
    · split at h
      · cases h
      · cases h
      · rename_i σ1 d1 h1
        simp only [SRes.done.injEq, Option.some.injEq] at h
        obtain ⟨-, rfl⟩ := h
        exact .sptr (ih _ (by simp +arith) _ _ _ _ _ _ h1 hd)
  · cases h

end

/-! ## What the value lends, the document borrows -/

/-- Objects are reached by pointers at places with the same string types. -/
def Heap.Placed (env : Env) (st : Place → Storage) (H : Heap) : Prop :=
  ∀ a t w pl pl', H a = some (t, w) → Lends env st w t pl → Lends env st w t pl'

/-- A shared object written before lends memory. -/
def Owed (env : Env) (st : Place → Storage) (H : Heap) (σ : STab) : Prop :=
  ∃ a t w pl, a ∈ σ.keys ∧ H a = some (t, w) ∧ Lends env st w t pl

/-- Nothing lent is missing: neither of the value (`L`) nor of the shared objects written now. -/
def Covers (env : Env) (st : Place → Storage) (H : Heap) (L : Prop) (σ : STab) (b : Bool) (σ' : STab) : Prop :=
  (L → b = true ∨ Owed env st H σ) ∧ (Owed env st H σ' → b = true ∨ Owed env st H σ)

section
variable {env : Env} {st : Place → Storage} {H : Heap}

theorem Covers.nil {L : Prop} {σ : STab} {b : Bool} (h : ¬ L) : Covers env st H L σ b σ := ⟨fun hl => (h hl).elim, .inr⟩

theorem Covers.seq {L L1 L2 : Prop} {σ σ1 σ2 : STab} {b1 b2 : Bool} (h1 : Covers env st H L1 σ b1 σ1)
    (h2 : Covers env st H L2 σ1 b2 σ2) (h : L → L1 ∨ L2) : Covers env st H L σ (b1 || b2) σ2 := by
  have hb : b2 = true ∨ Owed env st H σ1 → (b1 || b2) = true ∨ Owed env st H σ := by
    rintro (hb | hb)
    · exact .inl (by simp [hb])
    · rcases h1.2 hb with hb | hb
      · exact .inl (by simp [hb])
      · exact .inr hb
  refine ⟨fun hl => ?_, fun ho => hb (h2.2 ho)⟩
  rcases h hl with hl | hl
  · rcases h1.1 hl with hb | hb
    · exact .inl (by simp [hb])
    · exact .inr hb
  · exact hb (h2.1 hl)

theorem Covers.imp {L L' : Prop} {σ σ' : STab} {b : Bool} (h : Covers env st H L' σ b σ') (hl : L → L') : Covers env st H L σ b σ' :=
  ⟨fun l => h.1 (hl l), h.2⟩

/-- Nothing lent by the value is missing from the document. -/
def Open (env : Env) (st : Place → Storage) (H : Heap) (v : Val) : Prop :=
  ∀ t pl segs σ, HasTy env H v t → finite v = true → ∃ σ' d, lend env st v t pl segs σ = .done σ' (some d) ∧
    Covers env st H (Lends env st v t pl) σ d.lent σ'

theorem open_same (t : Ty) (pl : Place) : ∀ (vs : List Val), (∀ v ∈ vs, Open env st H v) → AllTy env H vs t → finiteAll vs = true →
    ∀ k segs σ, ∃ σ' ds, lendSame env st vs t pl k segs σ = .done σ' (some ds) ∧
      Covers env st H (∃ v ∈ vs, Lends env st v t pl) σ (Dom.lents ds) σ' := by
  intro vs
  induction vs with
  | nil =>
    intro _ _ _ k segs σ
    exact ⟨σ, [], by simp only [lendSame], .nil (by simp)⟩
  | cons v vs ih =>
    intro hv hty hf k segs σ
    simp only [AllTy] at hty
    simp only [finiteAll, Bool.and_eq_true] at hf
    obtain ⟨σ1, d, h1, c1⟩ := hv v (by simp) t pl (.index k :: segs) σ hty.1 hf.1
    obtain ⟨σ2, ds, h2, c2⟩ := ih (fun w hw => hv w (by simp [hw])) hty.2 hf.2 (k + 1) segs σ1
    refine ⟨σ2, d :: ds, by simp only [lendSame, h1, h2]; rfl, ?_⟩
    simp only [Dom.lents]
    refine c1.seq c2 ?_
    rintro ⟨w, hw, hl⟩
    rcases List.mem_cons.1 hw with rfl | hw
    · exact .inl hl
    · exact .inr ⟨w, hw, hl⟩

theorem open_set (t : Ty) (pl : Place) : ∀ (vs : List Val), (∀ v ∈ vs, Open env st H v) → AllTy env H vs t → finiteAll vs = true →
    ∀ segs σ, ∃ σ' ds, lendSet env st vs t pl segs σ = .done σ' (some ds) ∧
      Covers env st H (∃ v ∈ vs, Lends env st v t pl) σ (Dom.lents ds) σ' := by
  intro vs
  induction vs with
  | nil =>
    intro _ _ _ segs σ
    exact ⟨σ, [], by simp only [lendSet], .nil (by simp)⟩
  | cons v vs ih =>
    intro hv hty hf segs σ
    simp only [AllTy] at hty
    simp only [finiteAll, Bool.and_eq_true] at hf
    obtain ⟨σ1, d, h1, c1⟩ := hv v (by simp) t pl segs σ hty.1 hf.1
    obtain ⟨σ2, ds, h2, c2⟩ := ih (fun w hw => hv w (by simp [hw])) hty.2 hf.2 segs σ1
    refine ⟨σ2, d :: ds, by simp only [lendSet, h1, h2]; rfl, ?_⟩
    simp only [Dom.lents]
    refine c1.seq c2 ?_
    rintro ⟨w, hw, hl⟩
    rcases List.mem_cons.1 hw with rfl | hw
    · exact .inl hl
    · exact .inr ⟨w, hw, hl⟩

theorem open_items (pl : Place) : ∀ (vs : List Val) (ts : List Ty), (∀ v ∈ vs, Open env st H v) → HasTys env H vs ts → finiteAll vs = true →
    ∀ k segs σ, ∃ σ' ds, lendItems env st vs ts pl k segs σ = .done σ' (some ds) ∧
      Covers env st H (∃ i v t, vs[i]? = some v ∧ ts[i]? = some t ∧ Lends env st v t (.nth pl (k + i))) σ (Dom.lents ds) σ' := by
  intro vs
  induction vs with
  | nil =>
    intro ts _ hty _ k segs σ
    cases ts with
    | nil => exact ⟨σ, [], by simp only [lendItems], .nil (by simp)⟩
    | cons t ts => exact hty.elim
  | cons v vs ih =>
    intro ts hv hty hf k segs σ
    cases ts with
    | nil => exact hty.elim
    | cons t ts =>
      simp only [HasTys] at hty
      simp only [finiteAll, Bool.and_eq_true] at hf
      obtain ⟨σ1, d, h1, c1⟩ := hv v (by simp) t (.nth pl k) (.index k :: segs) σ hty.1 hf.1
      obtain ⟨σ2, ds, h2, c2⟩ := ih ts (fun w hw => hv w (by simp [hw])) hty.2 hf.2 (k + 1) segs σ1
      refine ⟨σ2, d :: ds, by simp only [lendItems, h1, h2]; rfl, ?_⟩
      simp only [Dom.lents]
      refine c1.seq c2 ?_
      rintro ⟨i, w, u, hi, hu, hl⟩
      cases i with
      | zero => cases hi; cases hu; exact .inl hl
      | succ i => exact .inr ⟨i, w, u, hi, hu, by rwa [show k + 1 + i = k + (i + 1) by omega]⟩

theorem open_entries (t : Ty) (pl : Place) : ∀ (kvs : List (Str × Val)), (∀ p ∈ kvs, Open env st H p.2) → (∀ p ∈ kvs, HasTy env H p.2 t) →
    (∀ p ∈ kvs, finite p.2 = true) → ∀ segs σ, ∃ σ' ms,
      lendEntries (kvs.map fun p => (p.1, lend env st p.2 t pl)) segs σ = .done σ' (some ms) ∧
      Covers env st H (∃ p ∈ kvs, Lends env st p.2 t pl) σ (Dom.lentFields ms) σ' := by
  intro kvs
  induction kvs with
  | nil =>
    intro _ _ _ segs σ
    exact ⟨σ, [], by simp only [List.map_nil, lendEntries], .nil (by simp)⟩
  | cons p kvs ih =>
    intro hv hty hf segs σ
    obtain ⟨σ1, d, h1, c1⟩ := hv p (by simp) t pl (.name p.1 :: segs) σ (hty p (by simp)) (hf p (by simp))
    obtain ⟨σ2, ds, h2, c2⟩ := ih (fun w hw => hv w (by simp [hw])) (fun w hw => hty w (by simp [hw])) (fun w hw => hf w (by simp [hw])) segs σ1
    refine ⟨σ2, (p.1, .own, d) :: ds, by simp only [List.map_cons, lendEntries, h1, h2]; rfl, ?_⟩
    have : Dom.lentFields ((p.1, .own, d) :: ds) = (d.lent || Dom.lentFields ds) := by simp [Dom.lentFields]
    rw [this]
    refine c1.seq c2 ?_
    rintro ⟨w, hw, hl⟩
    rcases List.mem_cons.1 hw with rfl | hw
    · exact .inl hl
    · exact .inr ⟨w, hw, hl⟩

theorem MembersTy.field {v : Val} {vs : List Val} {m : Member} {ms : List Member} (h : MembersTy env H (v :: vs) (m :: ms)) :
    MembersTy env H vs ms ∧ (fieldOf m.kind v = .skip ∨ ∃ w, fieldOf m.kind v = .here w ∧ HasTy env H w m.ty) := by
  rw [MembersTy.eq_def] at h
  refine ⟨h.2, ?_⟩
  have h := h.1
  obtain ⟨name, kind, ty⟩ := m
  cases kind <;> cases v <;> simp_all [fieldOf]

theorem open_members (c : Nat) : ∀ (vs : List Val) (ms : List Member), (∀ w, sizeOf w < 1 + sizeOf vs → Open env st H w) →
    MembersTy env H vs ms → finiteAll vs = true → ∀ k segs σ, ∃ σ' ds, lendMembers env st vs ms c k segs σ = .done σ' (some ds) ∧
      Covers env st H (∃ i v m w, vs[i]? = some v ∧ ms[i]? = some m ∧ fieldOf m.kind v = .here w ∧
        Lends env st w m.ty (.member c (k + i))) σ (Dom.lentFields ds) σ' := by
  intro vs
  induction vs with
  | nil =>
    intro ms _ hty _ k segs σ
    cases ms with
    | nil => exact ⟨σ, [], by simp only [lendMembers], .nil (by simp)⟩
    | cons m ms => exact hty.elim
  | cons v vs ih =>
    intro ms hv hty hf k segs σ
    cases ms with
    | nil => exact hty.elim
    | cons m ms =>
      simp only [finiteAll, Bool.and_eq_true] at hf
      obtain ⟨hms, hv1⟩ := hty.field
      have hrest := ih ms (fun w hw => hv w (by simp at hw ⊢; omega)) hms hf.2 (k + 1) segs
      rw [lendMembers_cons]
      rcases hv1 with hs | ⟨w, hw, hwt⟩
      · obtain ⟨σ2, ds, h2, c2⟩ := hrest σ
        refine ⟨σ2, ds, by simp only [hs, h2], c2.imp ?_⟩
        rintro ⟨i, v', m', w', hi, hm, hf', hl⟩
        cases i with
        | zero => cases hi; cases hm; rw [hs] at hf'; cases hf'
        | succ i => exact ⟨i, v', m', w', hi, hm, hf', by rwa [show k + 1 + i = k + (i + 1) by omega]⟩
      · obtain ⟨σ1, d, h1, c1⟩ := hv w (by have := fieldOf_size hw; simp; omega) m.ty (.member c k) (.name m.name :: segs) σ hwt (finite_field hw ▸ hf.1)
        obtain ⟨σ2, ds, h2, c2⟩ := hrest σ1
        refine ⟨σ2, (m.name, .own, d) :: ds, by simp only [hw, h1, h2]; rfl, ?_⟩
        have : Dom.lentFields ((m.name, .own, d) :: ds) = (d.lent || Dom.lentFields ds) := by simp [Dom.lentFields]
        rw [this]
        refine c1.seq c2 ?_
        rintro ⟨i, v', m', w', hi, hm, hf', hl⟩
        cases i with
        | zero =>
          cases hi; cases hm
          rw [hw] at hf'; cases hf'
          exact .inl hl
        | succ i => exact .inr ⟨i, v', m', w', hi, hm, hf', by rwa [show k + 1 + i = k + (i + 1) by omega]⟩

theorem mem_keys_of_lookup {σ : STab} {a : Nat} {s : List Seg} (h : σ.get a = some s) : a ∈ σ.keys := by
  unfold STab.get at h
  induction σ with
  | nil => cases h
  | cons p σ ih =>
    simp only [List.lookup] at h
    split at h
    · rename_i hp
      simp [STab.keys, eq_of_beq hp]
    · simp only [STab.keys, List.map_cons, List.mem_cons]
      exact .inr (ih h)

theorem lend_open (hfair : env.Fair) (hH : H.Placed env st) : ∀ v, Open env st H v := by
  refine Val.strong ?_
  intro v ih t pl segs σ hty hf
  have hv : ∀ vs : List Val, sizeOf vs < sizeOf v → ∀ w ∈ vs, Open env st H w := by
    intro vs hvs w hw
    exact ih w (by have := mem_size hw; omega)
  have hkv : ∀ kvs : List (Str × Val), sizeOf kvs < sizeOf v → ∀ p ∈ kvs, Open env st H p.2 := by
    intro kvs hkvs p hp
    exact ih p.2 (by have := mem_size_kv hp; omega)
  cases v with
  | prim p =>
    cases t with
    | prim k =>
      obtain ⟨j, hj⟩ := serPrim_ok env p k hty hf
      refine ⟨σ, lendPrim (st pl) k j, by simp only [lend, hj], ?_, .inr⟩
      intro hl
      left
      cases hl with
      | view h1 h2 => cases hj; simp [lendPrim, Dom.lent, Storage.home, h1, h2]
      | array h1 => cases hj; simp [lendPrim, Dom.lent, Storage.home, h1]
    | _ => exact hty.elim
  | seq vs =>
    cases t with
    | vec t =>
      obtain ⟨σ', ds, h, c⟩ := open_same t (.item pl) vs (hv vs (by simp +arith)) hty hf 0 segs σ
      refine ⟨σ', .arr ds, by simp only [lend, h]; rfl, c.imp ?_⟩
      rintro (⟨⟩ | ⟨⟩)
      exact ⟨_, ‹_ ∈ vs›, ‹_›⟩
    | _ => exact hty.elim
  | tup vs =>
    cases t with
    | arr n t =>
      obtain ⟨σ', ds, h, c⟩ := open_same t (.item pl) vs (hv vs (by simp +arith)) hty.2 hf 0 segs σ
      refine ⟨σ', .arr ds, by simp only [lend, hty.1, if_true, h]; rfl, c.imp ?_⟩
      intro hl
      cases hl with
      | arr h1 h2 => exact ⟨_, h1, h2⟩
    | tuple ts =>
      obtain ⟨σ', ds, h, c⟩ := open_items pl vs ts (hv vs (by simp +arith)) hty hf 0 segs σ
      refine ⟨σ', .arr ds, by simp only [lend, h]; rfl, c.imp ?_⟩
      intro hl
      cases hl with
      | tuple h1 h2 h3 => exact ⟨_, _, _, h1, h2, by rwa [Nat.zero_add]⟩
    | _ => exact hty.elim
  | set vs =>
    cases t with
    | set t =>
      obtain ⟨σ', ds, h, c⟩ := open_set t (.item pl) vs (hv vs (by simp +arith)) hty.1 hf segs σ
      refine ⟨σ', .arr ds, by simp only [lend, h]; rfl, c.imp ?_⟩
      intro hl
      cases hl with
      | set h1 h2 => exact ⟨_, h1, h2⟩
    | _ => exact hty.elim
  | map kvs =>
    cases t with
    | map o t =>
      have hperm : (iterate env o segs kvs).Perm kvs := iterate_perm env hfair o segs kvs hty.2.nodup
      have hsub : ∀ p ∈ iterate env o segs kvs, p ∈ kvs := fun p hp => hperm.mem_iff.1 hp
      obtain ⟨σ', ds, h, c⟩ := open_entries t (.item pl) (iterate env o segs kvs) (fun p hp => hkv kvs (by simp +arith) p (hsub p hp))
        (fun p hp => (ValsTy_iff env H kvs t).1 hty.1 p (hsub p hp)) (fun p hp => (finiteVals_iff kvs).1 hf p (hsub p hp)) segs σ
      refine ⟨σ', .obj ds, ?_, c.imp ?_⟩
      · simp only [lend, lendVals_eq]
        rw [iterate_map env o segs (fun p => lend env st p.2 t (.item pl)), h]
        rfl
      · intro hl
        cases hl with
        | map h1 h2 => exact ⟨_, hperm.mem_iff.2 h1, h2⟩
    | _ => exact hty.elim
  | dict kvs =>
    cases t with
    | dict t =>
      obtain ⟨σ', ds, h, c⟩ := open_entries t (.item pl) kvs (hkv kvs (by simp +arith))
        ((ValsTy_iff env H kvs t).1 hty) ((finiteVals_iff kvs).1 hf) segs σ
      refine ⟨σ', .obj ds, ?_, c.imp ?_⟩
      · simp only [lend, lendVals_eq, h]
        rfl
      · intro hl
        cases hl with
        | dict h1 h2 => exact ⟨_, h1, h2⟩
    | _ => exact hty.elim
  | alt i v =>
    cases t with
    | variant ts =>
      obtain ⟨t, hi, hty⟩ := hty
      obtain ⟨σ', d, h, c⟩ := ih v (by simp +arith) t (.nth pl i) segs σ hty hf
      refine ⟨σ', d, by simp only [lend, hi, h], c.imp ?_⟩
      intro hl
      cases hl with
      | variant h1 h2 => rw [hi] at h1; cases h1; exact h2
    | _ => exact hty.elim
  | obj vs =>
    cases t with
    | cls n =>
      obtain ⟨σ', ds, h, c⟩ := open_members n vs _ (fun w hw => ih w (by simp; omega)) hty hf 0 segs σ
      refine ⟨σ', .obj ds, by simp only [lend, h]; rfl, c.imp ?_⟩
      intro hl
      cases hl with
      | member h1 h2 h3 h4 =>
        refine ⟨_, _, _, _, h1, h2, ?_, by rwa [Nat.zero_add]⟩
        rename_i m
        cases hk : m.kind <;> simp_all [fieldOf]
      | optional h1 h2 h3 h4 =>
        refine ⟨_, _, _, _, h1, h2, ?_, by rwa [Nat.zero_add]⟩
        rw [h3]
        rfl
    | _ => exact hty.elim
  | uptr v =>
    cases t with
    | uptr t =>
      obtain ⟨σ', d, h, c⟩ := ih v (by simp +arith) t (.item pl) segs σ hty hf
      refine ⟨σ', d, by simp only [lend, h], c.imp ?_⟩
      intro hl
      cases hl with
      | uptr h1 => exact h1
    | _ => exact hty.elim
  | sptr a v =>
    cases t with
    | sptr t =>
      cases hg : σ.get a with
      | some s =>
        refine ⟨σ, .obj [(lit "$ref", .own, .str (pathStr s) .own)], by simp only [lend, hg], ?_, .inr⟩
        intro hl
        cases hl with
        | sptr h1 => exact .inr ⟨a, t, v, _, mem_keys_of_lookup hg, hty.1, h1⟩
      | none =>
        obtain ⟨σ', d, h, c⟩ := ih v (by simp +arith) t (.item pl) segs σ hty.2 hf
        refine ⟨σ'.put a segs, d, by simp only [lend, hg, h], ?_, ?_⟩
        · intro hl
          cases hl with
          | sptr h1 => exact c.1 h1
        · rintro ⟨b, u, w, q, hb, hu, hl⟩
          have hb' : b = a ∨ b ∈ σ'.keys := by
            unfold STab.put at hb
            split at hb
            · exact .inr hb
            · simpa [STab.keys] using hb
          rcases hb' with rfl | hb'
          · have hu' := hty.1
            rw [hu] at hu'
            cases hu'
            exact c.1 (hH _ _ _ _ _ hu hl)
          · exact c.2 ⟨b, u, w, q, hb', hu, hl⟩
    | _ => exact hty.elim
  | _ => cases t <;> exact hty.elim

end

end Verif.Core
