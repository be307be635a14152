import Verif.WriteTotal

/-!
# Conversions of lengths

RapidJSON counts with `rapidjson::SizeType`, which is `unsigned` (32 bits) unless a program redefines it; the library converts
`std::size_t` to it with `static_cast`, that is modulo 2^32. `Serialize` and `Write` leave the conversions out; here is the model of
`serialize_to_document` and `write_to_string` with all of them, to find out what they change (`serN_eq`, `wrN_eq`).
-/

namespace Verif.Core

/-- Number of values of `rapidjson::SizeType`. -/
def sizeRange : Nat := 2 ^ 32

/-- The characters that RapidJSON gets from `data()` and `static_cast<rapidjson::SizeType>(size())`. -/
def narrow (s : Str) : Str := s.take (s.length % sizeRange)

/-- `serPrim` with the conversions: serialize_string.hpp:24-27, 39, serialize_bytes.hpp:22, serialize_datetime.hpp:16, serialize_date.hpp:19
(constant lengths), serialize_enum.hpp:32 (by way of serialize_string.hpp:24-27); write_string.hpp:23-27, 37, write_bytes.hpp:18,
write_datetime.hpp:13, write_date.hpp:16, write_enum.hpp:32. -/
def serPrimN (env : Env) (k : Prim) (p : PVal) : LeafSer :=
  match serPrim env k p with
  | .ok (.str s) => .ok (.str (narrow s))
  | r => r

/-- `serEntries` with the conversion of the length of the key (serialize_map.hpp:27); the path has the key in full (line 21). -/
def serEntriesN : List (Str × SerFn) → List Seg → STab → SRes (List (Str × Json))
  | [], _, σ => .done σ (some [])
  | (k, f) :: rest, segs, σ =>
      match f (Seg.name k :: segs) σ with
      | .ub => .ub
      | .done σ' none => .done σ' none
      | .done σ' (some j) => (serEntriesN rest segs σ').map ((narrow k, j) :: ·)

mutual
/-- `ser` with the conversions: the text of a reference (serialize_pointer.hpp:46), and those of its parts. `Reserve` with a converted length
(serialize_vector.hpp:17, serialize_array.hpp:17, serialize_set.hpp:17) only provides memory, of which `PushBack` gets more as required. -/
def serN (env : Env) : Val → Ty → List Seg → STab → SRes Json
  | .prim p, .prim k, _, σ =>
      match serPrimN env k p with
      | .ub => .ub
      | .fail => .done σ none
      | .ok j => .done σ (some j)
  | .seq vs, .vec t, segs, σ => (serItemsN env vs (List.replicate vs.length t) 0 segs σ).map .arr
  | .tup vs, .arr n t, segs, σ =>
      if vs.length = n then (serItemsN env vs (List.replicate n t) 0 segs σ).map .arr else .ub
  | .tup vs, .tuple ts, segs, σ => (serItemsN env vs ts 0 segs σ).map .arr
  | .set vs, .set t, segs, σ => (serSetN env vs t segs σ).map .arr
  | .map kvs, .map ordered t, segs, σ =>
      (serEntriesN (iterate env ordered segs (serValsN env kvs t)) segs σ).map .obj
  | .dict kvs, .dict t, segs, σ => (serEntriesN (serValsN env kvs t) segs σ).map .obj
  | .alt i v, .variant ts, segs, σ =>
      match ts[i]? with
      | some t => serN env v t segs σ
      | none => .ub
  | .obj vs, .cls c, segs, σ => (serMembersN env vs (env.members c) segs σ).map .obj
  | .uptr v, .uptr t, segs, σ => serN env v t segs σ
  | .sptr a v, .sptr t, segs, σ =>
      match σ.get a with
      | some s => .done σ (some (.obj [(lit "$ref", .str (narrow (pathStr s)))]))
      | none =>
          match serN env v t segs σ with
          | .ub => .ub
          | .done σ' none => .done σ' none
          | .done σ' (some j) => .done (σ'.put a segs) (some j)
  | _, _, _, _ => .ub

/-- `serItems` (serialize_vector.hpp:19-28, serialize_array.hpp:19-28, serialize_tuple.hpp:26-44). -/
def serItemsN (env : Env) : List Val → List Ty → Nat → List Seg → STab → SRes (List Json)
  | [], [], _, _, σ => .done σ (some [])
  | v :: vs, t :: ts, k, segs, σ =>
      match serN env v t (.index k :: segs) σ with
      | .ub => .ub
      | .done σ' none => .done σ' none
      | .done σ' (some j) => (serItemsN env vs ts (k + 1) segs σ').map (j :: ·)
  | _, _, _, _, _ => .ub

/-- `serSet` (serialize_set.hpp:19-28). -/
def serSetN (env : Env) : List Val → Ty → List Seg → STab → SRes (List Json)
  | [], _, _, σ => .done σ (some [])
  | v :: vs, t, segs, σ =>
      match serN env v t segs σ with
      | .ub => .ub
      | .done σ' none => .done σ' none
      | .done σ' (some j) => (serSetN env vs t segs σ').map (j :: ·)

/-- `serVals` (serialize_map.hpp:19-22). -/
def serValsN (env : Env) : List (Str × Val) → Ty → List (Str × SerFn)
  | [], _ => []
  | (k, v) :: kvs, t => (k, serN env v t) :: serValsN env kvs t

/-- `serMembers` with the conversion of the length of the name (serialize_object.hpp:69). -/
def serMembersN (env : Env) : List Val → List Member → List Seg → STab → SRes (List (Str × Json))
  | [], [], _, σ => .done σ (some [])
  | v :: vs, m :: ms, segs, σ =>
      match m.kind, v with
      | .optional, .absent => serMembersN env vs ms segs σ
      | .optional, .present w =>
          (match serN env w m.ty (Seg.name m.name :: segs) σ with
          | .ub => .ub
          | .done σ' none => serMembersN env vs ms segs σ'
          | .done σ' (some j) => (serMembersN env vs ms segs σ').map ((narrow m.name, j) :: ·))
      | .optional, _ => .ub
      | _, v =>
          (match serN env v m.ty (Seg.name m.name :: segs) σ with
          | .ub => .ub
          | .done σ' none => serMembersN env vs ms segs σ'
          | .done σ' (some j) => (serMembersN env vs ms segs σ').map ((narrow m.name, j) :: ·))
  | _, _, _, _ => .ub
end

/-- `serialize_to_document` (serialize.hpp:33-52) with the conversions. -/
def serializeToDocumentN (env : Env) (t : Ty) (v : Val) : Option (Option Json) :=
  match serN env v t [] [] with
  | .ub => none
  | .done _ r => some r

/-- `writeEntries` with the conversion of the length of the key (write_map.hpp:20). -/
def writeEntriesN : List (Str × WriteFn) → List Seg → STab → WRes
  | [], _, σ => .done σ true []
  | (k, f) :: rest, segs, σ =>
      match f (Seg.name k :: segs) σ with
      | .ub => .ub
      | .done σ' false es => .done σ' false (.key (narrow k) :: es)
      | .done σ' true es => (writeEntriesN rest segs σ').before (.key (narrow k) :: es)

mutual
/-- `wr` with the conversions: the text of a reference (write_pointer.hpp:47), and those of its parts. -/
def wrN (env : Env) : Val → Ty → List Seg → STab → WRes
  | .prim p, .prim k, _, σ =>
      match serPrimN env k p with
      | .ub => .ub
      | .fail => .done σ false []
      | .ok j => .done σ true (events j)
  | .seq vs, .vec t, segs, σ =>
      ((wrItemsN env vs (List.replicate vs.length t) 0 segs σ).before [.startArr]).close .endArr
  | .tup vs, .arr n t, segs, σ =>
      if vs.length = n then ((wrItemsN env vs (List.replicate n t) 0 segs σ).before [.startArr]).close .endArr
      else .ub
  | .tup vs, .tuple ts, segs, σ => ((wrItemsN env vs ts 0 segs σ).before [.startArr]).close .endArr
  | .set vs, .set t, segs, σ => ((wrSetN env vs t segs σ).before [.startArr]).close .endArr
  | .map kvs, .map ordered t, segs, σ =>
      ((writeEntriesN (iterate env ordered segs (wrValsN env kvs t)) segs σ).before [.startObj]).close .endObj
  | .dict kvs, .dict t, segs, σ =>
      ((writeEntriesN (wrValsN env kvs t) segs σ).before [.startObj]).close .endObj
  | .alt i v, .variant ts, segs, σ =>
      match ts[i]? with
      | some t => wrN env v t segs σ
      | none => .ub
  | .obj vs, .cls c, segs, σ => ((wrMembersN env vs (env.members c) segs σ).before [.startObj]).close .endObj
  | .uptr v, .uptr t, segs, σ => wrN env v t segs σ
  | .sptr a v, .sptr t, segs, σ =>
      match σ.get a with
      | some s => .done σ true [.startObj, .key (lit "$ref"), .str (narrow (pathStr s)), .endObj]
      | none =>
          match wrN env v t segs σ with
          | .ub => .ub
          | .done σ' false es => .done σ' false es
          | .done σ' true es => .done (σ'.put a segs) true es
  | _, _, _, _ => .ub

/-- `wrItems` (write_vector.hpp:18-24, write_array.hpp:18-24, write_tuple.hpp:26-43). -/
def wrItemsN (env : Env) : List Val → List Ty → Nat → List Seg → STab → WRes
  | [], [], _, _, σ => .done σ true []
  | v :: vs, t :: ts, k, segs, σ =>
      match wrN env v t (.index k :: segs) σ with
      | .ub => .ub
      | .done σ' false es => .done σ' false es
      | .done σ' true es => (wrItemsN env vs ts (k + 1) segs σ').before es
  | _, _, _, _, _ => .ub

/-- `wrSet` (write_set.hpp:18-24). -/
def wrSetN (env : Env) : List Val → Ty → List Seg → STab → WRes
  | [], _, _, σ => .done σ true []
  | v :: vs, t, segs, σ =>
      match wrN env v t segs σ with
      | .ub => .ub
      | .done σ' false es => .done σ' false es
      | .done σ' true es => (wrSetN env vs t segs σ').before es

/-- `wrVals` (write_map.hpp:19-23). -/
def wrValsN (env : Env) : List (Str × Val) → Ty → List (Str × WriteFn)
  | [], _ => []
  | (k, v) :: kvs, t => (k, wrN env v t) :: wrValsN env kvs t

/-- `wrMembers` with the conversion of the length of the name (write_object.hpp:64). -/
def wrMembersN (env : Env) : List Val → List Member → List Seg → STab → WRes
  | [], [], _, σ => .done σ true []
  | v :: vs, m :: ms, segs, σ =>
      match m.kind, v with
      | .optional, .absent => wrMembersN env vs ms segs σ
      | .optional, .present w =>
          (match wrN env w m.ty (Seg.name m.name :: segs) σ with
          | .ub => .ub
          | .done σ' false es => .done σ' false (.key (narrow m.name) :: es)
          | .done σ' true es => (wrMembersN env vs ms segs σ').before (.key (narrow m.name) :: es))
      | .optional, _ => .ub
      | _, v =>
          (match wrN env v m.ty (Seg.name m.name :: segs) σ with
          | .ub => .ub
          | .done σ' false es => .done σ' false (.key (narrow m.name) :: es)
          | .done σ' true es => (wrMembersN env vs ms segs σ').before (.key (narrow m.name) :: es))
  | _, _, _, _ => .ub
end

/-- `write_to_string(obj, str)` (write.hpp:41-53) with the conversions. -/
def writeToStringN (env : Env) (t : Ty) (v : Val) (before : List Event) : Option (Bool × List Event) :=
  match wrN env v t [] [] with
  | .ub => none
  | .done _ true es => some (true, es)
  | .done _ false _ => some (false, before)

/-! ## What the conversions change -/

mutual
/-- The document with every string and every key cut to its length modulo 2^32 (specification). -/
def cut : Json → Json
  | .str s => .str (narrow s)
  | .arr js => .arr (cutAll js)
  | .obj ms => .obj (cutFields ms)
  | j => j

/-- The elements, cut. -/
def cutAll : List Json → List Json
  | [] => []
  | j :: js => cut j :: cutAll js

/-- The members, cut. -/
def cutFields : List (Str × Json) → List (Str × Json)
  | [] => []
  | (k, j) :: ms => (narrow k, cut j) :: cutFields ms
end

mutual
/-- All strings and keys of the document are shorter than 2^32 bytes (specification). -/
def Short : Json → Prop
  | .str s => s.length < 2 ^ 32
  | .arr js => ShortAll js
  | .obj ms => ShortFields ms
  | _ => True

/-- The same for all elements. -/
def ShortAll : List Json → Prop
  | [] => True
  | j :: js => Short j ∧ ShortAll js

/-- The same for all members. -/
def ShortFields : List (Str × Json) → Prop
  | [] => True
  | (k, j) :: ms => k.length < 2 ^ 32 ∧ Short j ∧ ShortFields ms
end

theorem narrow_short {s : Str} (h : s.length < 2 ^ 32) : narrow s = s := by
  unfold narrow sizeRange
  rw [Nat.mod_eq_of_lt h, List.take_length]

theorem narrow_iff (s : Str) : narrow s = s ↔ s.length < 2 ^ 32 := by
  refine ⟨fun h => ?_, narrow_short⟩
  have h1 : (narrow s).length = s.length % 2 ^ 32 := by
    unfold narrow sizeRange
    rw [List.length_take]
    exact Nat.min_eq_left (Nat.mod_le _ _)
  rw [h] at h1
  rw [h1]
  exact Nat.mod_lt _ (by decide)

theorem cut_iff (j : Json) : cut j = j ↔ Short j := by
  refine Json.rec (motive_1 := fun j => cut j = j ↔ Short j) (motive_2 := fun js => cutAll js = js ↔ ShortAll js)
    (motive_3 := fun ms => cutFields ms = ms ↔ ShortFields ms) (motive_4 := fun p => cut p.2 = p.2 ↔ Short p.2) ?_ ?_ ?_ ?_ ?_ ?_ ?_ ?_ ?_ ?_ ?_ j
  · simp [cut, Short]
  · simp [cut, Short]
  · simp [cut, Short]
  · intro s; simp only [cut, Short, Json.str.injEq]; exact narrow_iff s
  · intro js h; simp only [cut, Short, Json.arr.injEq]; exact h
  · intro ms h; simp only [cut, Short, Json.obj.injEq]; exact h
  · simp [cutAll, ShortAll]
  · intro j js h1 h2; simp only [cutAll, ShortAll, List.cons.injEq, h1, h2]
  · simp [cutFields, ShortFields]
  · rintro ⟨k, j⟩ ms h1 h2; simp only [cutFields, ShortFields, List.cons.injEq, Prod.mk.injEq, h2, narrow_iff, and_assoc] at h1 ⊢; rw [h1]
  · exact fun _ _ h => h

theorem map_map {α β γ : Type} (f : α → β) (g : β → γ) (r : SRes α) : (r.map f).map g = r.map (g ∘ f) := by
  cases r with
  | ub => rfl
  | done σ r => simp [SRes.map]

theorem ref_narrow : narrow (lit "$ref") = lit "$ref" := narrow_short (by decide)

theorem serPrimN_eq (env : Env) (k : Prim) (p : PVal) (j : Json) (h : serPrim env k p = .ok j) : serPrimN env k p = .ok (cut j) := by
  unfold serPrimN
  rw [h]
  cases j with
  | arr js => cases k <;> cases p <;> simp [serPrim] at h <;> split at h <;> simp at h
  | obj js => cases k <;> cases p <;> simp [serPrim] at h <;> split at h <;> simp at h
  | _ => rfl

theorem of_iterate {α : Type} {env : Env} {o : Bool} {segs : List Seg} {kvs : List (Str × α)} {p : Str × α} (h : p ∈ iterate env o segs kvs) : p ∈ kvs := by
  unfold iterate at h
  split at h
  · exact h
  · unfold inOrder at h
    simp only [List.mem_filterMap, Option.map_eq_some_iff] at h
    obtain ⟨k, _, a, h1, rfl⟩ := h
    obtain ⟨l1, l2, rfl, _⟩ := List.lookup_eq_some_iff.1 h1
    simp

theorem serValsN_eq (env : Env) (kvs : List (Str × Val)) (t : Ty) : serValsN env kvs t = kvs.map fun p => (p.1, serN env p.2 t) := by
  induction kvs with
  | nil => simp [serValsN]
  | cons p kvs ih => obtain ⟨k, v⟩ := p; simp [serValsN, ih]

theorem wrValsN_eq (env : Env) (kvs : List (Str × Val)) (t : Ty) : wrValsN env kvs t = kvs.map fun p => (p.1, wrN env p.2 t) := by
  induction kvs with
  | nil => simp [wrValsN]
  | cons p kvs ih => obtain ⟨k, v⟩ := p; simp [wrValsN, ih]

/-- What is to be shown for one value. -/
def SerCut (env : Env) (v : Val) : Prop := ∀ t segs σ, serN env v t segs σ = (ser env v t segs σ).map cut

theorem serEntriesN_eq (env : Env) (t : Ty) (kvs : List (Str × Val)) (h : ∀ p ∈ kvs, SerCut env p.2) (segs : List Seg) (σ : STab) :
    serEntriesN (kvs.map fun p => (p.1, serN env p.2 t)) segs σ = (serEntries (kvs.map fun p => (p.1, ser env p.2 t)) segs σ).map cutFields := by
  induction kvs generalizing σ with
  | nil => rfl
  | cons p kvs ih =>
    obtain ⟨k, v⟩ := p
    simp only [List.map_cons, serEntriesN, serEntries, h (k, v) (by simp) t]
    cases ser env v t (Seg.name k :: segs) σ with
    | ub => rfl
    | done σ' r =>
      cases r with
      | none => rfl
      | some j =>
        show SRes.map _ (serEntriesN _ segs σ') = _
        rw [ih (fun p hp => h p (by simp [hp]))]
        simp only [map_map]
        rfl

theorem serItemsN_eq (env : Env) (vs : List Val) (h : ∀ v ∈ vs, SerCut env v) (ts : List Ty) (k : Nat) (segs : List Seg) (σ : STab) :
    serItemsN env vs ts k segs σ = (serItems env vs ts k segs σ).map cutAll := by
  induction vs generalizing ts k σ with
  | nil => cases ts <;> simp [serItemsN, serItems, SRes.map, cutAll]
  | cons v vs ih =>
    cases ts with
    | nil => simp [serItemsN, serItems, SRes.map]
    | cons t ts =>
      simp only [serItemsN, serItems, h v (by simp) t]
      cases ser env v t (.index k :: segs) σ with
      | ub => rfl
      | done σ' r =>
        cases r with
        | none => rfl
        | some j =>
          show SRes.map _ (serItemsN env vs ts (k + 1) segs σ') = _
          rw [ih (fun p hp => h p (by simp [hp]))]
          simp only [map_map]
          rfl

theorem serSetN_eq (env : Env) (vs : List Val) (h : ∀ v ∈ vs, SerCut env v) (t : Ty) (segs : List Seg) (σ : STab) :
    serSetN env vs t segs σ = (serSet env vs t segs σ).map cutAll := by
  induction vs generalizing σ with
  | nil => simp [serSetN, serSet, SRes.map, cutAll]
  | cons v vs ih =>
    simp only [serSetN, serSet, h v (by simp) t]
    cases ser env v t segs σ with
    | ub => rfl
    | done σ' r =>
      cases r with
      | none => rfl
      | some j =>
        show SRes.map _ (serSetN env vs t segs σ') = _
        rw [ih (fun p hp => h p (by simp [hp]))]
        simp only [map_map]
        rfl

theorem serMembersN_eq (env : Env) (vs : List Val) (h : ∀ v ∈ vs, SerCut env v ∧ ∀ w, v = .present w → SerCut env w) (ms : List Member) (segs : List Seg) (σ : STab) :
    serMembersN env vs ms segs σ = (serMembers env vs ms segs σ).map cutFields := by
  induction vs generalizing ms σ with
  | nil => cases ms <;> simp [serMembersN, serMembers, SRes.map, cutFields]
  | cons v vs ih =>
    have ih := ih (fun p hp => h p (by simp [hp]))
    cases ms with
    | nil => simp [serMembersN, serMembers, SRes.map]
    | cons m ms =>
      have step : ∀ w, SerCut env w → (match serN env w m.ty (Seg.name m.name :: segs) σ with
            | .ub => .ub
            | .done σ' none => serMembersN env vs ms segs σ'
            | .done σ' (some j) => (serMembersN env vs ms segs σ').map ((narrow m.name, j) :: ·)) =
          SRes.map cutFields (match ser env w m.ty (Seg.name m.name :: segs) σ with
            | .ub => .ub
            | .done σ' none => serMembers env vs ms segs σ'
            | .done σ' (some j) => (serMembers env vs ms segs σ').map ((m.name, j) :: ·)) := by
        intro w hw
        rw [hw]
        cases ser env w m.ty (Seg.name m.name :: segs) σ with
        | ub => rfl
        | done σ' r =>
          cases r with
          | none => exact ih ms σ'
          | some j =>
            show SRes.map _ (serMembersN env vs ms segs σ') = _
            rw [ih]
            simp only [map_map]
            rfl
      rw [serMembersN.eq_def, serMembers.eq_def]
      obtain ⟨name, kind, ty⟩ := m
      cases kind with
      | optional =>
        cases v with
        | absent => exact ih ms σ
        | present w => exact step w ((h _ (by simp)).2 w rfl)
        | _ => rfl
      | required => exact step v (h _ (by simp)).1
      | default => exact step v (h _ (by simp)).1

/-- With the conversions `serialize` makes the document that it would make without, but cut. -/
theorem serN_eq (env : Env) : ∀ v, SerCut env v := by
  intro v
  induction v using Val.strong with
  | _ v ih =>
    intro t segs σ
    have hv : ∀ vs : List Val, sizeOf vs < sizeOf v → ∀ w ∈ vs, SerCut env w := fun vs h w hw => ih w (Nat.lt_trans (mem_size hw) h)
    have hkv : ∀ kvs : List (Str × Val), sizeOf kvs < sizeOf v → ∀ p ∈ kvs, SerCut env p.2 := fun kvs h p hp => ih p.2 (Nat.lt_trans (mem_size_kv hp) h)
    cases v with
    | prim p =>
      cases t with
      | prim k =>
        simp only [serN, ser]
        cases h : serPrim env k p with
        | ub => simp [serPrimN, h, SRes.map]
        | fail => simp [serPrimN, h, SRes.map]
        | ok j => rw [serPrimN_eq env k p j h]; rfl
      | _ => rfl
    | seq vs =>
      cases t with
      | vec t => simp only [serN, ser, serItemsN_eq env vs (hv vs (by simp +arith)), map_map]; rfl
      | _ => rfl
    | tup vs =>
      cases t with
      | arr n t =>
        simp only [serN, ser]
        split
        · simp only [serItemsN_eq env vs (hv vs (by simp +arith)), map_map]; rfl
        · rfl
      | tuple ts => simp only [serN, ser, serItemsN_eq env vs (hv vs (by simp +arith)), map_map]; rfl
      | _ => rfl
    | set vs =>
      cases t with
      | set t => simp only [serN, ser, serSetN_eq env vs (hv vs (by simp +arith)), map_map]; rfl
      | _ => rfl
    | map kvs =>
      cases t with
      | map o t =>
        simp only [serN, ser, serVals_eq, serValsN_eq, iterate_map (g := fun p => ser env p.2 t), iterate_map (g := fun p => serN env p.2 t)]
        rw [serEntriesN_eq env t _ fun p hp => hkv kvs (by simp +arith) p (of_iterate hp), map_map, map_map]
        rfl
      | _ => rfl
    | dict kvs =>
      cases t with
      | dict t =>
        simp only [serN, ser, serVals_eq, serValsN_eq]
        rw [serEntriesN_eq env t _ (hkv kvs (by simp +arith)), map_map, map_map]
        rfl
      | _ => rfl
    | alt i v =>
      cases t with
      | variant ts =>
        simp only [serN, ser]
        cases ts[i]? with
        | none => rfl
        | some t => exact ih v (by simp +arith) t segs σ
      | _ => rfl
    | obj vs =>
      cases t with
      | cls c =>
        simp only [serN, ser]
        rw [serMembersN_eq env vs fun w hw => ⟨hv vs (by simp +arith) w hw, fun u hu => ih u (by have := mem_size hw; subst hu; simp at this ⊢; omega)⟩, map_map, map_map]
        rfl
      | _ => rfl
    | uptr v =>
      cases t with
      | uptr t => simp only [serN, ser]; exact ih v (by simp +arith) t segs σ
      | _ => rfl
    | sptr a v =>
      cases t with
      | sptr t =>
        simp only [serN, ser]
        cases σ.get a with
        | some s => simp only [SRes.map, Option.map, cut, cutFields, ref_narrow]
        | none =>
          simp only [ih v (by simp +arith) t segs σ]
          cases ser env v t segs σ with
          | ub => rfl
          | done σ' r => cases r <;> rfl
      | _ => rfl
    | _ => cases t <;> rfl

/-- The event with its characters cut. -/
def cutEvent : Event → Event
  | .str s => .str (narrow s)
  | .key k => .key (narrow k)
  | e => e

theorem events_cut (j : Json) : events (cut j) = (events j).map cutEvent := by
  refine Json.rec (motive_1 := fun j => events (cut j) = (events j).map cutEvent) (motive_2 := fun js => eventsItems (cutAll js) = (eventsItems js).map cutEvent)
    (motive_3 := fun ms => eventsMembers (cutFields ms) = (eventsMembers ms).map cutEvent) (motive_4 := fun p => events (cut p.2) = (events p.2).map cutEvent) ?_ ?_ ?_ ?_ ?_ ?_ ?_ ?_ ?_ ?_ ?_ j
  · rfl
  · intro b; rfl
  · intro n; rfl
  · intro s; rfl
  · intro js h; simp [cut, events, h, cutEvent]
  · intro ms h; simp [cut, events, h, cutEvent]
  · rfl
  · intro j js h1 h2; simp [cutAll, eventsItems, h1, h2]
  · rfl
  · rintro ⟨k, j⟩ ms h1 h2; simp only at h1; simp [cutFields, eventsMembers, h1, h2, cutEvent]
  · exact fun _ _ h => h

/-- The calls of a writer with their characters cut. -/
def WRes.cut : WRes → WRes
  | .ub => .ub
  | .done σ ok es => .done σ ok (es.map cutEvent)

theorem cut_before (pre : List Event) (r : WRes) : (r.before pre).cut = r.cut.before (pre.map cutEvent) := by
  cases r with
  | ub => rfl
  | done σ ok es => simp [WRes.before, WRes.cut]

theorem cut_close (e : Event) (he : cutEvent e = e) (r : WRes) : (r.close e).cut = r.cut.close e := by
  cases r with
  | ub => rfl
  | done σ ok es => cases ok <;> simp [WRes.close, WRes.cut, he]

/-- What is to be shown for one value. -/
def WrCut (env : Env) (v : Val) : Prop := ∀ t segs σ, wrN env v t segs σ = (wr env v t segs σ).cut

theorem writeEntriesN_eq (env : Env) (t : Ty) (kvs : List (Str × Val)) (h : ∀ p ∈ kvs, WrCut env p.2) (segs : List Seg) (σ : STab) :
    writeEntriesN (kvs.map fun p => (p.1, wrN env p.2 t)) segs σ = (writeEntries (kvs.map fun p => (p.1, wr env p.2 t)) segs σ).cut := by
  induction kvs generalizing σ with
  | nil => rfl
  | cons p kvs ih =>
    obtain ⟨k, v⟩ := p
    simp only [List.map_cons, writeEntriesN, writeEntries, h (k, v) (by simp) t]
    cases wr env v t (Seg.name k :: segs) σ with
    | ub => rfl
    | done σ' ok es =>
      cases ok with
      | false => rfl
      | true =>
        show WRes.before _ (writeEntriesN _ segs σ') = _
        rw [ih (fun p hp => h p (by simp [hp])), cut_before]
        rfl

theorem wrItemsN_eq (env : Env) (vs : List Val) (h : ∀ v ∈ vs, WrCut env v) (ts : List Ty) (k : Nat) (segs : List Seg) (σ : STab) :
    wrItemsN env vs ts k segs σ = (wrItems env vs ts k segs σ).cut := by
  induction vs generalizing ts k σ with
  | nil => cases ts <;> simp [wrItemsN, wrItems, WRes.cut]
  | cons v vs ih =>
    cases ts with
    | nil => simp [wrItemsN, wrItems, WRes.cut]
    | cons t ts =>
      simp only [wrItemsN, wrItems, h v (by simp) t]
      cases wr env v t (.index k :: segs) σ with
      | ub => rfl
      | done σ' ok es =>
        cases ok with
        | false => rfl
        | true =>
          show WRes.before _ (wrItemsN env vs ts (k + 1) segs σ') = _
          rw [ih (fun p hp => h p (by simp [hp])), cut_before]

theorem wrSetN_eq (env : Env) (vs : List Val) (h : ∀ v ∈ vs, WrCut env v) (t : Ty) (segs : List Seg) (σ : STab) :
    wrSetN env vs t segs σ = (wrSet env vs t segs σ).cut := by
  induction vs generalizing σ with
  | nil => simp [wrSetN, wrSet, WRes.cut]
  | cons v vs ih =>
    simp only [wrSetN, wrSet, h v (by simp) t]
    cases wr env v t segs σ with
    | ub => rfl
    | done σ' ok es =>
      cases ok with
      | false => rfl
      | true =>
        show WRes.before _ (wrSetN env vs t segs σ') = _
        rw [ih (fun p hp => h p (by simp [hp])), cut_before]

theorem wrMembersN_eq (env : Env) (vs : List Val) (h : ∀ v ∈ vs, WrCut env v ∧ ∀ w, v = .present w → WrCut env w) (ms : List Member) (segs : List Seg) (σ : STab) :
    wrMembersN env vs ms segs σ = (wrMembers env vs ms segs σ).cut := by
  induction vs generalizing ms σ with
  | nil => cases ms <;> simp [wrMembersN, wrMembers, WRes.cut]
  | cons v vs ih =>
    have ih := ih (fun p hp => h p (by simp [hp]))
    cases ms with
    | nil => simp [wrMembersN, wrMembers, WRes.cut]
    | cons m ms =>
      have step : ∀ w, WrCut env w → (match wrN env w m.ty (Seg.name m.name :: segs) σ with
            | .ub => .ub
            | .done σ' false es => .done σ' false (.key (narrow m.name) :: es)
            | .done σ' true es => (wrMembersN env vs ms segs σ').before (.key (narrow m.name) :: es)) =
          WRes.cut (match wr env w m.ty (Seg.name m.name :: segs) σ with
            | .ub => .ub
            | .done σ' false es => .done σ' false (.key m.name :: es)
            | .done σ' true es => (wrMembers env vs ms segs σ').before (.key m.name :: es)) := by
        intro w hw
        rw [hw]
        cases wr env w m.ty (Seg.name m.name :: segs) σ with
        | ub => rfl
        | done σ' ok es =>
          cases ok with
          | false => rfl
          | true =>
            show WRes.before _ (wrMembersN env vs ms segs σ') = _
            rw [ih, cut_before]
            rfl
      rw [wrMembersN.eq_def, wrMembers.eq_def]
      obtain ⟨name, kind, ty⟩ := m
      cases kind with
      | optional =>
        cases v with
        | absent => exact ih ms σ
        | present w => exact step w ((h _ (by simp)).2 w rfl)
        | _ => rfl
      | required => exact step v (h _ (by simp)).1
      | default => exact step v (h _ (by simp)).1

/-- With the conversions `serialize` makes the calls that it would make without, but with characters cut. -/
theorem wrN_eq (env : Env) : ∀ v, WrCut env v := by
  intro v
  induction v using Val.strong with
  | _ v ih =>
    intro t segs σ
    have hv : ∀ vs : List Val, sizeOf vs < sizeOf v → ∀ w ∈ vs, WrCut env w := fun vs h w hw => ih w (Nat.lt_trans (mem_size hw) h)
    have hkv : ∀ kvs : List (Str × Val), sizeOf kvs < sizeOf v → ∀ p ∈ kvs, WrCut env p.2 := fun kvs h p hp => ih p.2 (Nat.lt_trans (mem_size_kv hp) h)
    have ha : ∀ r : WRes, ((r.before [.startArr]).close .endArr).cut = (r.cut.before [.startArr]).close .endArr := fun r => by rw [cut_close _ rfl, cut_before]; rfl
    have ho : ∀ r : WRes, ((r.before [.startObj]).close .endObj).cut = (r.cut.before [.startObj]).close .endObj := fun r => by rw [cut_close _ rfl, cut_before]; rfl
    cases v with
    | prim p =>
      cases t with
      | prim k =>
        simp only [wrN, wr]
        cases h : serPrim env k p with
        | ub => simp [serPrimN, h, WRes.cut]
        | fail => simp [serPrimN, h, WRes.cut]
        | ok j => rw [serPrimN_eq env k p j h]; simp only [WRes.cut, events_cut]
      | _ => rfl
    | seq vs =>
      cases t with
      | vec t => simp only [wrN, wr, wrItemsN_eq env vs (hv vs (by simp +arith)), ha]
      | _ => rfl
    | tup vs =>
      cases t with
      | arr n t =>
        simp only [wrN, wr]
        split
        · simp only [wrItemsN_eq env vs (hv vs (by simp +arith)), ha]
        · rfl
      | tuple ts => simp only [wrN, wr, wrItemsN_eq env vs (hv vs (by simp +arith)), ha]
      | _ => rfl
    | set vs =>
      cases t with
      | set t => simp only [wrN, wr, wrSetN_eq env vs (hv vs (by simp +arith)), ha]
      | _ => rfl
    | map kvs =>
      cases t with
      | map o t =>
        simp only [wrN, wr, wrVals_eq, wrValsN_eq, iterate_map (g := fun p => wr env p.2 t), iterate_map (g := fun p => wrN env p.2 t)]
        rw [writeEntriesN_eq env t _ fun p hp => hkv kvs (by simp +arith) p (of_iterate hp), ho]
      | _ => rfl
    | dict kvs =>
      cases t with
      | dict t =>
        simp only [wrN, wr, wrVals_eq, wrValsN_eq]
        rw [writeEntriesN_eq env t _ (hkv kvs (by simp +arith)), ho]
      | _ => rfl
    | alt i v =>
      cases t with
      | variant ts =>
        simp only [wrN, wr]
        cases ts[i]? with
        | none => rfl
        | some t => exact ih v (by simp +arith) t segs σ
      | _ => rfl
    | obj vs =>
      cases t with
      | cls c =>
        simp only [wrN, wr]
        rw [wrMembersN_eq env vs fun w hw => ⟨hv vs (by simp +arith) w hw, fun u hu => ih u (by have := mem_size hw; subst hu; simp at this ⊢; omega)⟩, ho]
      | _ => rfl
    | uptr v =>
      cases t with
      | uptr t => simp only [wrN, wr]; exact ih v (by simp +arith) t segs σ
      | _ => rfl
    | sptr a v =>
      cases t with
      | sptr t =>
        simp only [wrN, wr]
        cases σ.get a with
        | some s => simp only [WRes.cut, List.map, cutEvent, ref_narrow]
        | none =>
          simp only [ih v (by simp +arith) t segs σ]
          cases wr env v t segs σ with
          | ub => rfl
          | done σ' ok es => cases ok <;> rfl
      | _ => rfl
    | _ => cases t <;> rfl

theorem documentN_eq (env : Env) (t : Ty) (v : Val) : serializeToDocumentN env t v = (serializeToDocument env t v).map (·.map cut) := by
  unfold serializeToDocumentN serializeToDocument
  rw [serN_eq]
  cases ser env v t [] [] with
  | ub => rfl
  | done σ r => rfl

end Verif.Core
