import Verif.WidenBack
import Verif.Props.Agree

/-!
# C77: types can evolve

C72 is about members that are added and removed. This is about variables that get another type: a larger integer type,
`double` instead of `float`, more enumerators, `std::vector` instead of `std::array`, `std::pair` or `std::set`, a pointer instead
of an object, a variant instead of a type. `Widens` (Widen.lean) is the list of these changes, `Carried` says what becomes of the data;
neither refers to a reader or writer. The old and the new form of a class are two classes of the same environment.
-/

namespace Verif.Props
open Verif.Core Verif.Numeric Verif.EnumConv Verif.Demo

/-- **C77 (partial).** What a program reads with the old type, it reads with the new type, with the same data; throwing variant.
`loose` is `false` if the document has all members of kind `default`.

Missing: types with shared pointers, documents with masked members inside variants (C33), time stamps that overflow the clock, new members
(C72). -/
theorem C77_throw_partial (env : Env) (hu : env.Unshared) (hdist : env.DistinctNames) (R : Nat → Nat → Prop) (hR : Replaces env R) (t t' : Ty)
    (hw : Widens R t t') (ht : t.unshared = true) (ht' : t'.unshared = true) (root : Json) (hc : Calm env root) (hv : VariantsUnmasked env t root)
    (hv' : VariantsUnmasked env t' root) (loose : Bool) (hl : loose = false → Entire env t root) (next next' : Nat) (v : Val)
    (h : deserializeThrow env t root next = .returned v) :
    ∃ v', deserializeThrow env t' root next' = .returned v' ∧ Carried env loose t t' v v' := by
  obtain ⟨v', h1, h2⟩ := decodes_widen env hdist R hR loose _ t t' hw root (Nat.le_refl _) hl _ (env.fresh t') v
    (((C33_exact_partial env hu t ht root hc hv next).2 v).1 h)
  exact ⟨v', ((C33_exact_partial env hu t' ht' root hc hv' next').2 v').2 h1, h2⟩

/-- **C77 (partial).** The same for the variant that returns a `bool`, for documents without masked members (C32). That the new program
accepts the document does not need the condition on its variants. -/
theorem C77_bool_partial (env : Env) (hu : env.Unshared) (hdist : env.DistinctNames) (R : Nat → Nat → Prop) (hR : Replaces env R) (t t' : Ty)
    (hw : Widens R t t') (ht : t.unshared = true) (ht' : t'.unshared = true) (root : Json) (hc : Calm env root) (hm : Unmasked env t root)
    (loose : Bool) (hl : loose = false → Entire env t root) (target target' : Val) (next next' : Nat) (v : Val)
    (h : deserializeBool env t root target next = some (true, v)) :
    (∃ w, deserializeBool env t' root target' next' = some (true, w)) ∧
    (VariantsUnmasked env t' root → ∃ v', deserializeBool env t' root target' next' = some (true, v') ∧ Carried env loose t t' v v') := by
  obtain ⟨v', h1, h2⟩ := decodes_widen env hdist R hR loose _ t t' hw root (Nat.le_refl _) hl target target' v
    (((C32_exact_partial env hu t ht root hc hm target next).1 v).1 h)
  refine ⟨C32_conforming_accepted env hu t' ht' root hc target' v' h1 next', fun hv' => ⟨v', ?_, h2⟩⟩
  rw [deserializeBool_pd env hu t' ht', (follows env hu root t' ht' hc).1 _ v' h1 hv' false []]

/-- **C77 (partial).** Files: what the old program has written, the new program reads, with the same data. Here members of kind
`default` are no exception.

Missing: values with shared pointers, and those that the old program could not read either (C26). -/
theorem C77_files_partial (env : Env) (hu : env.Unshared) (hfair : env.Fair) (hclk : 0 < env.clk) (hdist : env.DistinctNames) (R : Nat → Nat → Prop)
    (hR : Replaces env R) (t t' : Ty) (hw : Widens R t t') (ht : t.unshared = true) (ht' : t'.unshared = true) (v : Val)
    (hty : HasTy env (fun _ => none) v t) (hf : finite v = true) (hr : Readable env v t) (doc : Json)
    (hs : serializeToDocument env t v = some (some doc)) (hc : Calm env doc) :
    (∀ target next, ∃ w, deserializeBool env t' doc target next = some (true, w)) ∧
    (VariantsUnmasked env t' doc → ∀ target next,
      (∃ v', deserializeBool env t' doc target next = some (true, v') ∧ Carried env false t t' v v') ∧
      ∃ v', deserializeThrow env t' doc next = .returned v' ∧ Carried env false t t' v v') := by
  obtain ⟨new, doc', tr, h1, h2, -⟩ := serOk env hfair (fun _ => none) v t [] [] [] hty hf
  obtain rfl : doc' = doc := by
    rw [serializeToDocument, h1] at hs
    simpa using hs
  obtain ⟨hd, hcomp⟩ := shown_back env hu hclk hdist _ v t [] doc' tr h2 hty hr ht hc
  have key : ∀ target, ∃ v', Decodes env t' doc' target v' ∧ Carried env false t t' v v' := fun target =>
    decodes_widen env hdist R hR false _ t t' hw doc' (Nat.le_refl _) (fun _ => hcomp) target target v (hd target)
  refine ⟨fun target next => ?_, fun hv' target next => ⟨?_, ?_⟩⟩
  · obtain ⟨v', h3, -⟩ := key target
    exact C32_conforming_accepted env hu t' ht' doc' hc target v' h3 next
  · obtain ⟨v', h3, h4⟩ := key target
    refine ⟨v', ?_, h4⟩
    rw [deserializeBool_pd env hu t' ht', (follows env hu doc' t' ht' hc).1 _ v' h3 hv' false []]
  · obtain ⟨v', h3, h4⟩ := key (env.fresh t')
    exact ⟨v', ((C33_exact_partial env hu t' ht' doc' hc hv' next).2 v').2 h3, h4⟩

/-- **C77 (partial).** The streaming parser of the new program, for types and documents that it can read (C42, C61). -/
theorem C77_parser_partial (env : Env) (hu : env.Unshared) (hclk : 0 < env.clk) (hfair : env.Fair) (hdist : env.DistinctNames) (hctor : env.BlankCtor) (host : Host)
    (G : Nat → Prop) (hG : StreamableClasses env G) (hb : TablesBuilt env host) (d : Nat) (hroom : Roomy host d) (R : Nat → Nat → Prop)
    (hR : Replaces env R) (t t' : Ty) (hw : Widens R t t') (ht : t.unshared = true) (ht' : t'.unshared = true) (hst : Streamable G t') (v : Val)
    (hty : HasTy env (fun _ => none) v t) (hf : finite v = true) (hr : Readable env v t) (doc : Json)
    (hs : serializeToDocument env t v = some (some doc)) (hc : Calm env doc) (hdep : doc.depth ≤ d) (hp : doc.proper = true) (hcom : Common env t' doc)
    (target : Val) (hbl : Blank env t' target) (n : Nat) :
    ∃ v', parseBool env host t' (.document doc) target n = .accepted v' ∧ Carried env false t t' v v' := by
  obtain ⟨new, doc', tr, h1, h2, -⟩ := serOk env hfair (fun _ => none) v t [] [] [] hty hf
  obtain rfl : doc' = doc := by
    rw [serializeToDocument, h1] at hs
    simpa using hs
  obtain ⟨hd, hcomp⟩ := shown_back env hu hclk hdist _ v t [] doc' tr h2 hty hr ht hc
  obtain ⟨v', h3, h4⟩ := decodes_widen env hdist R hR false _ t t' hw doc' (Nat.le_refl _) (fun _ => hcomp) target target v (hd target)
  exact ⟨v', (parse_decodes env hu hdist hctor host G hG hb d hroom t' hst ht' doc' hdep hp hcom target target hbl n v').2 h3, h4⟩

/-! ## Changes that are not of this kind -/

/-- **C77, negation.** A number becomes a vector of numbers, or any type becomes a vector: no document of the old program is accepted. -/
theorem C77_to_vector (env : Env) (hu : env.Unshared) (p : Prim) (t : Ty) (ht : t.unshared = true) (j : Json) (hc : Calm env j) (target : Val) (pv : PVal)
    (h : Decodes env (.prim p) j target (.prim pv)) (target' : Val) (next : Nat) :
    ∃ w, deserializeBool env (.vec t) j target' next = some (false, w) := by
  have hj : ∀ js, j ≠ .arr js := by
    intro js hj
    subst hj
    cases h with
    | prim _ _ _ _ h => cases h
  have hun : Unmasked env (.vec t) j := by
    intro c fields hp
    rcases Part.head hp with ⟨h, -⟩ | ⟨t1, j1, hch, -⟩
    · cases h
    · cases hch with
      | vec _ js _ hm => exact absurd rfl (hj js)
  exact (C32_exact_partial env hu (.vec t) ht j hc hun target' next).2.2 (.array _ _ rfl hj)

example (target : Val) (next : Nat) : ∃ w, deserializeBool plainEnv (.vec tInt) (.num (.int 5)) target next = some (false, w) :=
  C77_to_vector plainEnv plainEnv_unshared (.int int32) tInt rfl (.num (.int 5)) trivial target (.int 5) (.prim _ _ _ _ (.int _ _ (by decide))) target next

/-- **C77, negation.** `std::int64_t` becomes `double`: all documents are read, and some numbers change silently. -/
theorem C77_int64_double (next : Nat) :
    serializeToDocument plainEnv (.prim (.int i64)) (.prim (.int 9007199254740993)) = some (some (.num (.int 9007199254740993))) ∧
    deserializeThrow plainEnv (.prim (.int i64)) (.num (.int 9007199254740993)) next = .returned (.prim (.int 9007199254740993)) ∧
    deserializeThrow plainEnv tDbl (.num (.int 9007199254740993)) next = .returned (.prim (.flt (.fin false 0 53))) :=
  ⟨rfl, rfl, rfl⟩

/-- **C77, negation.** An alternative of a variant that is not the last one gets a larger type: `std::variant<std::int8_t, std::int64_t>` becomes
`std::variant<std::int32_t, std::int64_t>`, and 1000 is read as the other alternative. -/
theorem C77_alternative_widened (next : Nat) :
    serializeToDocument plainEnv (.variant [.prim (.int ⟨.w8, true⟩), .prim (.int i64)]) (.alt 1 (.prim (.int 1000))) = some (some (.num (.int 1000))) ∧
    deserializeThrow plainEnv (.variant [.prim (.int ⟨.w8, true⟩), .prim (.int i64)]) (.num (.int 1000)) next = .returned (.alt 1 (.prim (.int 1000))) ∧
    deserializeThrow plainEnv (.variant [tInt, .prim (.int i64)]) (.num (.int 1000)) next = .returned (.alt 0 (.prim (.int 1000))) :=
  ⟨rfl, rfl, rfl⟩

/-- **C77, negation.** A type becomes the last alternative of a variant instead of the first one. -/
theorem C77_alternative_in_front (next : Nat) :
    deserializeThrow plainEnv (.prim .date) (.str (lit "2024-02-29")) next = .returned (.prim (.date 2024 2 29)) ∧
    deserializeThrow plainEnv (.variant [tStr, .prim .date]) (.str (lit "2024-02-29")) next = .returned (.alt 0 (.prim (.str (lit "2024-02-29")))) :=
  ⟨rfl, rfl⟩

/-! ## A class and its new form -/

/-- The old form `struct Track { std::int32_t id; Level level; std::pair<float, float> pos; std::optional<std::string> note; std::set<int> tags;
std::vector<Track> prev; }` with `level` a named enumeration, and the new form with other types in another order. -/
def trackClasses : Nat → Class
  | 0 => ⟨lit "Track", [⟨lit "id", .required, tInt⟩, ⟨lit "level", .required, .prim (.enumStr [(0, lit "low"), (1, lit "high")])⟩,
      ⟨lit "pos", .default, .tuple [.prim (.flt .float), .prim (.flt .float)]⟩, ⟨lit "note", .optional, tStr⟩, ⟨lit "tags", .required, .set tInt⟩,
      ⟨lit "prev", .required, .vec (.cls 0)⟩]⟩
  | 1 => ⟨lit "Track", [⟨lit "pos", .default, .vec (.prim (.flt .double))⟩, ⟨lit "id", .required, .variant [.prim (.int i64), tStr]⟩,
      ⟨lit "level", .optional, tStr⟩, ⟨lit "note", .default, tStr⟩, ⟨lit "prev", .required, .vec (.uptr (.cls 1))⟩,
      ⟨lit "tags", .required, .vec (.prim (.flt .double))⟩]⟩
  | _ => ⟨lit "None", []⟩

/-- The program. -/
def trackEnv : Env := { Demo.env with classes := trackClasses }

theorem track_unshared : trackEnv.Unshared := by
  intro c
  show ∀ m ∈ (trackClasses c).members, m.ty.unshared = true
  unfold trackClasses
  split <;> decide

theorem track_distinct : trackEnv.DistinctNames := by
  intro c
  show ((trackClasses c).members.map (·.name)).Nodup
  unfold trackClasses
  split <;> decide +kernel

/-- Class 0 is replaced by class 1. -/
def trackR (c c' : Nat) : Prop := c = 0 ∧ c' = 1

theorem track_replaces : Replaces trackEnv trackR := by
  rintro c c' ⟨rfl, rfl⟩ m' hm'
  have hd : Widens trackR (.prim (.flt .float)) (.prim (.flt .double)) := .prim _ _ .double
  have : m' ∈ (trackClasses 1).members := hm'
  simp only [trackClasses, List.mem_cons, List.not_mem_nil, or_false] at this
  rcases this with rfl | rfl | rfl | rfl | rfl | rfl
  · exact ⟨⟨lit "pos", .default, .tuple [.prim (.flt .float), .prim (.flt .float)]⟩, by simp [Env.members, trackEnv, trackClasses],
      rfl, by simp, .tupleVec _ _ fun t ht => by
        simp only [List.mem_cons, List.not_mem_nil, or_false, or_self] at ht
        subst ht
        exact hd⟩
  · exact ⟨⟨lit "id", .required, tInt⟩, by simp [Env.members, trackEnv, trackClasses], rfl, by simp, .toVariant _ _ _ (.prim _ _ (.int _ _ (by decide) (by decide)))⟩
  · exact ⟨⟨lit "level", .required, .prim (.enumStr [(0, lit "low"), (1, lit "high")])⟩, by simp [Env.members, trackEnv, trackClasses], rfl, by simp, .prim _ _ (.enumText _)⟩
  · exact ⟨⟨lit "note", .optional, tStr⟩, by simp [Env.members, trackEnv, trackClasses], rfl, by simp, .prim _ _ (.same _)⟩
  · exact ⟨⟨lit "prev", .required, .vec (.cls 0)⟩, by simp [Env.members, trackEnv, trackClasses], rfl, by simp, .vec _ _ (.toPtr _ _ (.cls _ _ ⟨rfl, rfl⟩))⟩
  · exact ⟨⟨lit "tags", .required, .set tInt⟩, by simp [Env.members, trackEnv, trackClasses], rfl, by simp, .setVec _ _ (.prim _ _ (.real _ _ (by decide)))⟩

/-- A track after another one. -/
def trackVal : Val :=
  .obj [.prim (.int 7), .prim (.int 1), .tup [.prim (.flt (.fin false 0 1)), .prim (.flt (.fin false 1 0))], .absent, .set [.prim (.int 1), .prim (.int 2)],
    .seq [.obj [.prim (.int 6), .prim (.int 0), .tup [.prim (.flt (.zero false)), .prim (.flt (.zero false))], .present (.prim (.str (lit "first"))), .set [], .seq []]]]

/-- `{"id": 7, "level": "high", "pos": [2.0, 3.0], "tags": [1, 2], "prev": [{"id": 6, "level": "low", "pos": [0.0, 0.0], "note": "first", "tags": [], "prev": []}]}` -/
def trackDoc : Json :=
  .obj [(lit "id", .num (.int 7)), (lit "level", .str (lit "high")), (lit "pos", .arr [.num (.dbl (.fin false 0 1)), .num (.dbl (.fin false 1 0))]),
    (lit "tags", .arr [.num (.int 1), .num (.int 2)]),
    (lit "prev", .arr [.obj [(lit "id", .num (.int 6)), (lit "level", .str (lit "low")), (lit "pos", .arr [.num (.dbl (.zero false)), .num (.dbl (.zero false))]),
      (lit "note", .str (lit "first")), (lit "tags", .arr []), (lit "prev", .arr [])]])]

/-- What the new program reads: identifiers are alternatives of a variant, levels are texts. -/
def trackNew : Val :=
  .obj [.seq [.prim (.flt (.fin false 0 1)), .prim (.flt (.fin false 1 0))], .alt 0 (.prim (.int 7)), .present (.prim (.str (lit "high"))), trackEnv.fresh tStr,
    .seq [.uptr (.obj [.seq [.prim (.flt (.zero false)), .prim (.flt (.zero false))], .alt 0 (.prim (.int 6)), .present (.prim (.str (lit "low"))),
      .prim (.str (lit "first")), .seq [], .seq []])], .seq [.prim (.flt (.fin false 0 0)), .prim (.flt (.fin false 0 1))]]

theorem track_written : serializeToDocument trackEnv (.cls 0) trackVal = some (some trackDoc) := rfl

theorem track_read (next : Nat) : deserializeThrow trackEnv (.cls 1) trackDoc next = .returned trackNew := rfl

/-- No masked members inside variants if the alternatives have no components. -/
theorem leaf_variants (env : Env) (G : Ty → Prop) (hG : ∀ t j t' j', G t → Child env t j t' j' → G t')
    (hv : ∀ ts, G (.variant ts) → ∀ t ∈ ts, ∃ p, t = .prim p) (t : Ty) (ht : G t) (j : Json) : VariantsUnmasked env t j := by
  intro ts j' hp
  have hgen : ∀ t2 j2, Part env t j t2 j2 → G t2 := by
    intro t2 j2 h
    induction h with
    | self => exact ht
    | child t1 j1 t2 j2 _ hc ih => exact hG _ _ _ _ ih hc
  have hts := hv ts (hgen _ _ hp)
  intro c fields hp2
  rcases Part.head hp2 with ⟨h, -⟩ | ⟨t1, j1, hc, hp3⟩
  · cases h
  · cases hc with
    | variant _ _ _ hm =>
      obtain ⟨p, rfl⟩ := hts t1 hm
      rcases Part.head hp3 with ⟨h, -⟩ | ⟨t2, j2, hc, -⟩
      · cases h
      · cases hc

theorem track_old_variants (j : Json) : VariantsUnmasked trackEnv (.cls 0) j := by
  refine leaf_variants trackEnv (fun t => t ∈ [.cls 0, tInt, .prim (.enumStr [(0, lit "low"), (1, lit "high")]), .tuple [.prim (.flt .float), .prim (.flt .float)],
    .prim (.flt .float), tStr, .set tInt, .vec (.cls 0)]) ?_ ?_ (.cls 0) (by simp) j
  · intro t j t' j' ht hc
    simp only [List.mem_cons, List.not_mem_nil, or_false] at ht
    rcases ht with rfl | rfl | rfl | rfl | rfl | rfl | rfl | rfl
    · cases hc with
      | cls _ _ m i _ hm hf =>
        have : m ∈ (trackClasses 0).members := hm
        simp only [trackClasses, List.mem_cons, List.not_mem_nil, or_false] at this
        rcases this with rfl | rfl | rfl | rfl | rfl | rfl <;> simp
    · cases hc
    · cases hc
    · cases hc with
      | tuple _ _ i _ _ hi _ =>
        have := List.mem_of_getElem? hi
        simp only [List.mem_cons, List.not_mem_nil, or_false, or_self] at this
        simp [this]
    · cases hc
    · cases hc
    · cases hc with
      | set => simp
    · cases hc with
      | vec => simp
  · intro ts h
    simp at h

theorem track_new_variants (j : Json) : VariantsUnmasked trackEnv (.cls 1) j := by
  refine leaf_variants trackEnv (fun t => t ∈ [.cls 1, .vec (.prim (.flt .double)), .prim (.flt .double), .variant [.prim (.int i64), tStr], .prim (.int i64), tStr,
    .vec (.uptr (.cls 1)), .uptr (.cls 1)]) ?_ ?_ (.cls 1) (by simp) j
  · intro t j t' j' ht hc
    simp only [List.mem_cons, List.not_mem_nil, or_false] at ht
    rcases ht with rfl | rfl | rfl | rfl | rfl | rfl | rfl | rfl
    · cases hc with
      | cls _ _ m i _ hm hf =>
        have : m ∈ (trackClasses 1).members := hm
        simp only [trackClasses, List.mem_cons, List.not_mem_nil, or_false] at this
        rcases this with rfl | rfl | rfl | rfl | rfl | rfl <;> simp
    · cases hc with
      | vec => simp
    · cases hc
    · cases hc with
      | variant _ _ _ hm =>
        simp only [List.mem_cons, List.not_mem_nil, or_false] at hm
        rcases hm with rfl | rfl <;> simp
    · cases hc
    · cases hc
    · cases hc with
      | vec => simp
    · cases hc with
      | uptr => simp
  · intro ts h t ht
    simp only [List.mem_cons, Ty.variant.injEq, List.not_mem_nil, or_false, reduceCtorEq, false_or] at h
    subst h
    simp only [List.mem_cons, List.not_mem_nil, or_false] at ht
    rcases ht with rfl | rfl <;> exact ⟨_, rfl⟩

theorem track_calm : Calm trackEnv trackDoc := by
  simp only [trackDoc, Calm, CalmAll, CalmFields, CalmStr, and_true, true_and, ne_eq]
  decide +kernel

theorem track_ty : HasTy trackEnv (fun _ => none) trackVal (.cls 0) := by
  simp only [trackVal, HasTy, HasTys, AllTy, Env.members, trackEnv, trackClasses, MembersTy, PrimTy, and_true, true_and]
  refine ⟨by decide, ⟨by decide, by decide⟩, ⟨⟨by decide, by decide⟩, ?_⟩, by decide, ?_⟩
  · simp [env, less]
  · exact ⟨⟨by decide, by decide⟩, List.Pairwise.nil⟩

theorem track_readable : Readable trackEnv trackVal (.cls 0) := by
  simp only [trackVal, Readable, Readables, ReadableAll, ReadableMembers, Env.members, trackEnv, trackClasses, LeafGood, and_true, true_and]
  exact ⟨⟨by decide, by decide +kernel⟩, rfl, ⟨by decide, by decide +kernel⟩, rfl⟩

theorem track_fair : trackEnv.Fair := fun _ _ _ => List.reverse_perm _

example (target : Val) (next : Nat) :
    (∃ v', deserializeBool trackEnv (.cls 1) trackDoc target next = some (true, v') ∧ Carried trackEnv false (.cls 0) (.cls 1) trackVal v') ∧
    ∃ v', deserializeThrow trackEnv (.cls 1) trackDoc next = .returned v' ∧ Carried trackEnv false (.cls 0) (.cls 1) trackVal v' :=
  (C77_files_partial trackEnv track_unshared track_fair (by decide) track_distinct trackR track_replaces (.cls 0) (.cls 1) (.cls _ _ ⟨rfl, rfl⟩) rfl rfl trackVal
    track_ty (by decide +kernel) track_readable trackDoc track_written track_calm).2 (track_new_variants _) target next

/-- `{"tags": [2, 1, 2], "pos": [1073741825, 3], "level": "low", "id": 5, "prev": [{"id": 4, "level": "low", "tags": [], "prev": []}], "rest": null}`:
2^30 + 1 is no number of type `float`, and there is an object without position. -/
def otherDoc : Json :=
  .obj [(lit "tags", .arr [.num (.int 2), .num (.int 1), .num (.int 2)]), (lit "pos", .arr [.num (.int 1073741825), .num (.int 3)]), (lit "level", .str (lit "low")),
    (lit "id", .num (.int 5)), (lit "prev", .arr [.obj [(lit "id", .num (.int 4)), (lit "level", .str (lit "low")), (lit "tags", .arr []), (lit "prev", .arr [])]]),
    (lit "rest", .null)]

/-- What the old program reads. -/
def otherVal : Val :=
  .obj [.prim (.int 5), .prim (.int 0), .tup [.prim (.flt (.fin false 0 30)), .prim (.flt (.fin false 1 0))], .absent, .set [.prim (.int 1), .prim (.int 2)],
    .seq [.obj [.prim (.int 4), .prim (.int 0), trackEnv.fresh (.tuple [.prim (.flt .float), .prim (.flt .float)]), .absent, .set [], .seq []]]]

example (next : Nat) : ∃ v', deserializeThrow trackEnv (.cls 1) otherDoc next = .returned v' ∧ Carried trackEnv true (.cls 0) (.cls 1) otherVal v' :=
  C77_throw_partial trackEnv track_unshared track_distinct trackR track_replaces (.cls 0) (.cls 1) (.cls _ _ ⟨rfl, rfl⟩) rfl rfl otherDoc
    (by simp only [otherDoc, Calm, CalmAll, CalmFields, CalmStr, and_true, true_and, ne_eq]; decide +kernel)
    (track_old_variants _) (track_new_variants _) true (by simp) next next otherVal rfl

/-- `[3, 2.0]` -/
def mixedPair : Json := .arr [.num (.int 3), .num (.dbl (.fin false 0 1))]

/-- `std::pair<std::int32_t, float>` becomes `std::vector<double>`. -/
theorem mixedPair_widens : Widens trackR (.tuple [tInt, .prim (.flt .float)]) (.vec (.prim (.flt .double))) := by
  refine .tupleVec _ _ fun t ht => ?_
  simp only [List.mem_cons, List.not_mem_nil, or_false] at ht
  rcases ht with rfl | rfl
  · exact .prim _ _ (.real _ _ (by decide))
  · exact .prim _ _ .double

example (target target' : Val) (next : Nat) :
    ∃ v', deserializeBool trackEnv (.vec (.prim (.flt .double))) mixedPair target' next = some (true, v') ∧
      Carried trackEnv true (.tuple [tInt, .prim (.flt .float)]) (.vec (.prim (.flt .double))) (.tup [.prim (.int 3), .prim (.flt (.fin false 0 1))]) v' := by
  refine (C77_bool_partial trackEnv track_unshared track_distinct trackR track_replaces _ _ mixedPair_widens rfl rfl mixedPair (by simp [mixedPair, Calm, CalmAll]) ?_
    true (by simp) target target' next next _ rfl).2 ?_
  · refine Unmasked.of (fun _ _ h => by cases h) fun t' j' h => ?_
    cases h with
    | tuple _ _ i _ _ hi _ =>
      have := List.mem_of_getElem? hi
      simp only [List.mem_cons, List.not_mem_nil, or_false] at this
      rcases this with rfl | rfl <;> exact Unmasked.prim _ _ _
  · intro ts j' hp
    rcases Part.head hp with ⟨h, -⟩ | ⟨t1, j1, hc, hp⟩
    · cases h
    · cases hc with
      | vec =>
        rcases Part.head hp with ⟨h, -⟩ | ⟨t2, j2, hc, -⟩
        · cases h
        · cases hc

/-- `[3.0, 2.0]` -/
def floatPair : Json := .arr [.num (.dbl (.fin false 1 0)), .num (.dbl (.fin false 0 1))]

example (n : Nat) : ∃ v', parseBool plainEnv host (.vec (.prim (.flt .double))) (.document floatPair) (.prim .null) n = .accepted v' ∧
    Carried plainEnv false (.arr 2 (.prim (.flt .float))) (.vec (.prim (.flt .double))) (.tup [.prim (.flt (.fin false 1 0)), .prim (.flt (.fin false 0 1))]) v' := by
  refine C77_parser_partial plainEnv plainEnv_unshared (by decide) (fun _ _ _ => List.reverse_perm _) plain_distinct plain_blank_ctor host streamed plain_streamable plain_built 100
    host_roomy (fun _ _ => False) (fun _ _ h => h.elim) _ _ (.arrVec _ _ _ (.prim _ _ .double)) rfl rfl ⟨rfl, rfl⟩ _ ?_ (by decide +kernel) ?_ floatPair rfl
    (by simp [floatPair, Calm, CalmAll]) (by decide +kernel) (by decide +kernel) ?_ _ ?_ n
  · simp only [HasTy, AllTy, PrimTy, and_true]
    decide
  · simp [Readable, ReadableAll, LeafGood]
  · refine Common.of (fun _ _ h => by cases h) (fun _ _ _ h => by cases h) (fun _ _ h => by cases h) fun t' j' h => ?_
    cases h with
    | vec _ _ _ hm =>
      refine Common.of (fun _ _ h => by cases h) (fun _ _ _ h => by cases h) (fun f x h1 h2 => ?_) (fun t2 j2 h => by cases h)
      cases h1
      subst h2
      simp only [List.mem_cons, List.not_mem_nil, or_false, Json.num.injEq] at hm
      rcases hm with rfl | rfl <;> decide +kernel
  · exact .vec _ _ rfl

end Verif.Props
