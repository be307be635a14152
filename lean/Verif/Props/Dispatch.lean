import Verif.DispatchLemmas
import Verif.Demo
import Verif.Deserialize
import Verif.Write

/-!
# C105, C106, C107: the choice of specialisations
-/

namespace Verif.Props
open Verif.Core Verif.Numeric Verif.EnumConv Verif.Demo Verif.Dispatch

/-! ## C105 -/

theorem offers_dict (op : Op) (inc : Header → Bool) (h : op = .serialize ∨ op = .write) : offers op inc .dict = inc .map := by
  rcases h with rfl | rfl <;> rfl

theorem offers_dict' (op : Op) (inc : Header → Bool) (h : ¬ (op = .serialize ∨ op = .write)) : offers op inc .dict = false := by
  cases op <;> first | rfl | simp at h

theorem offers_bytes (op : Op) (inc : Header → Bool) (h : op ≠ .schema) : offers op inc .bytes = inc .bytes := by
  cases op <;> first | rfl | exact absurd rfl h

/-- **C105.** Two sets of headers with which a type is supported: what is done with the type is the same if and only if they agree on the header for binary data,
in case the type has binary data, and (for writing) on the header for maps, in case the type has a vector of pairs whose first component is a string. -/
theorem C105_exact (op : Op) (hop : op ≠ .schema) (inc inc' : Header → Bool) (t : CTy) (T T' : Ty) (h : resolve op inc t = some T) (h' : resolve op inc' t = some T') :
    T = T' ↔ (Contains (.vec .byte) t → inc .bytes = inc' .bytes) ∧
      (op = .serialize ∨ op = .write → ∀ s, Contains (.vec (.pair .str s)) t ∨ Contains (.vec (.pair .view s)) t → inc .map = inc' .map) := by
  rw [resolve_same op op inc inc' t T T' h h', Fixed, offers_bytes op inc hop, offers_bytes op inc' hop]
  constructor
  · rintro ⟨h1, h2⟩
    refine ⟨fun hb => h1 ⟨_, hb, rfl⟩, fun hw s hs => ?_⟩
    rw [offers_dict op inc hw, offers_dict op inc' hw] at h2
    rcases hs with hs | hs
    · exact h2 ⟨_, hs, s, .inl rfl⟩
    · exact h2 ⟨_, hs, s, .inr rfl⟩
  · rintro ⟨h1, h2⟩
    refine ⟨fun ⟨s, hs, hb⟩ => h1 (hb ▸ hs), fun ⟨s, hs, u, hd⟩ => ?_⟩
    by_cases hw : op = .serialize ∨ op = .write
    · rw [offers_dict op inc hw, offers_dict op inc' hw]
      rcases hd with rfl | rfl
      · exact h2 hw u (.inl hs)
      · exact h2 hw u (.inr hs)
    · rw [offers_dict' op inc hw, offers_dict' op inc' hw]

/-- The headers for the fundamental types, strings and vectors only; and those with the header for sets too. -/
def fewHeaders : Header → Bool := fun h => h == .fundamental || h == .string || h == .vector
def moreHeaders : Header → Bool := fun h => fewHeaders h || h == .set || h == .map

example : resolve .write fewHeaders (.vec (.vec .str)) = resolve .write moreHeaders (.vec (.vec .str)) := by
  have h := (C105_exact .write nofun fewHeaders moreHeaders (.vec (.vec .str)) _ _ rfl rfl).2 ⟨fun h => ?_, fun _ s h => ?_⟩
  · exact congrArg some h
  · simp [contains_iff _ (.vec _), contains_iff _ CTy.str, comps] at h
  · simp [contains_iff _ (.vec _), contains_iff _ CTy.str, comps] at h

/-- **C105.** With more headers, more types are supported. -/
theorem C105_more (op : Op) (inc inc' : Header → Bool) (h : ∀ x, inc x = true → inc' x = true) (t : CTy) (T : Ty) (ht : resolve op inc t = some T) :
    ∃ T', resolve op inc' t = some T' :=
  Option.isSome_iff_exists.1 (resolve_mono op inc inc' h t (Option.isSome_iff_exists.2 ⟨T, ht⟩))

example : ∃ T', resolve .deserialize moreHeaders (.vec (.vec .str)) = some T' :=
  C105_more .deserialize fewHeaders moreHeaders (fun x => by cases x <;> decide) _ _ rfl

/-- Without the header for binary data, and with it. -/
def noBytes : Header → Bool := fun h => h != .bytes
def noMaps : Header → Bool := fun h => h != .map

/-- **C105, negation.** `std::vector<std::byte>{1, 2}`: with the headers for vectors and enumerations only, the document is `[1,2]`; when the header for binary data is
included too, it is `"AQI="`, and `[1,2]` cannot be read any more. -/
theorem C105_bytes : ∃ T T' v v', resolve .serialize noBytes (.vec .byte) = some T ∧ resolve .serialize everything (.vec .byte) = some T' ∧
    resolve .deserialize everything (.vec .byte) = some T' ∧
    serializeToDocument Demo.env T v = some (some (.arr [.num (.int 1), .num (.int 2)])) ∧
    serializeToDocument Demo.env T' v' = some (some (.str (lit "AQI="))) ∧
    v = .seq [.prim (.int 1), .prim (.int 2)] ∧ v' = .prim (.bytes [1, 2]) ∧
    ∃ p e, deserializeThrow Demo.env T' (.arr [.num (.int 1), .num (.int 2)]) 0 = .threw p e :=
  ⟨_, _, _, _, rfl, rfl, rfl, by with_unfolding_all rfl, by with_unfolding_all rfl, rfl, rfl, _, _, by with_unfolding_all rfl⟩

/-- **C105, negation.** `std::vector<std::pair<std::string, int>>{{"a", 1}}`: without the header for maps the document is `[["a",1]]`, with it `{"a":1}`. -/
theorem C105_dictionary : ∃ T T' v v', resolve .serialize noMaps (.vec (.pair .str (.int int32))) = some T ∧
    resolve .serialize everything (.vec (.pair .str (.int int32))) = some T' ∧
    serializeToDocument Demo.env T v = some (some (.arr [.arr [.str (lit "a"), .num (.int 1)]])) ∧
    serializeToDocument Demo.env T' v' = some (some (.obj [(lit "a", .num (.int 1))])) ∧
    v = .seq [.tup [.prim (.str (lit "a")), .prim (.int 1)]] ∧ v' = .dict [(lit "a", .prim (.int 1))] :=
  ⟨_, _, _, _, rfl, rfl, by with_unfolding_all rfl, by with_unfolding_all rfl, rfl, rfl⟩

/-- No binary data and no vectors of pairs with a string. -/
def Robust (t : CTy) : Prop := ¬ Contains (.vec .byte) t ∧ ∀ s, ¬ Contains (.vec (.pair .str s)) t ∧ ¬ Contains (.vec (.pair .view s)) t

theorem built_same (op : Op) (hop : op ≠ .schema) (inc inc' : Header → Bool) (C : Nat → CClass) (hC : ∀ c, ∀ m ∈ (C c).members, Robust m.ty) (K K' : Nat → Class)
    (h : Built op inc C K) (h' : Built op inc' C K') : K = K' := by
  have key : ∀ (ms : List CMember) (xs ys : List Member), (∀ m ∈ ms, Robust m.ty) →
      buildMembers op inc ms = some xs → buildMembers op inc' ms = some ys → xs = ys := by
    intro ms
    induction ms with
    | nil => intro xs ys _ h1 h2; simp_all [buildMembers]
    | cons m ms ih =>
      intro xs ys hr h1 h2
      simp only [buildMembers, Option.bind_eq_some_iff, Option.map_eq_some_iff] at h1 h2
      obtain ⟨T, hT, xs', hx, rfl⟩ := h1
      obtain ⟨T', hT', ys', hy, rfl⟩ := h2
      have hm := hr m (List.mem_cons_self ..)
      rw [(C105_exact op hop inc inc' m.ty T T' hT hT').2 ⟨fun hb => absurd hb hm.1, fun _ s hs => (hs.elim (hm.2 s).1 (hm.2 s).2).elim⟩,
        ih xs' ys' (fun m hm => hr m (List.mem_cons_of_mem _ hm)) hx hy]
  funext c
  obtain ⟨ms, h1, e1⟩ := h c
  obtain ⟨ms', h2, e2⟩ := h' c
  rw [e1, e2, key _ _ _ (hC c) h1 h2]

/-- **C105 (partial).** A program whose types have no binary data and no vectors of pairs with a string: with any two sets of headers with which it compiles, the documents
are the same. -/
theorem C105_same_document_partial (inc inc' : Header → Bool) (C : Nat → CClass) (hC : ∀ c, ∀ m ∈ (C c).members, Robust m.ty) (t : CTy) (ht : Robust t)
    (K K' : Nat → Class) (h : Built .serialize inc C K) (h' : Built .serialize inc' C K') (T T' : Ty)
    (hT : resolve .serialize inc t = some T) (hT' : resolve .serialize inc' t = some T') (env : Env) (v : Val) :
    serializeToDocument { env with classes := K } T v = serializeToDocument { env with classes := K' } T' v := by
  rw [built_same .serialize nofun inc inc' C hC K K' h h',
    (C105_exact .serialize nofun inc inc' t T T' hT hT').2 ⟨fun hb => absurd hb ht.1, fun _ s hs => (hs.elim (ht.2 s).1 (ht.2 s).2).elim⟩]

/-- A class with a string and a list of such objects. -/
def nodeClass : Nat → CClass := fun _ => ⟨lit "Node", [⟨lit "name", .required, .str⟩, ⟨lit "next", .optional, .vec (.cls 0)⟩]⟩

example (env : Env) (v : Val) (inc : Header → Bool) (K : Nat → Class) (h : Built .serialize inc nodeClass K) (T : Ty) (hT : resolve .serialize inc (.set (.cls 0)) = some T) :
    serializeToDocument { env with classes := K } T v =
      serializeToDocument { env with classes := fun _ => ⟨lit "Node", [⟨lit "name", .required, .prim .str⟩, ⟨lit "next", .optional, .vec (.cls 0)⟩]⟩ } (.set (.cls 0)) v :=
  C105_same_document_partial inc everything nodeClass
    (fun c m hm => by
      simp only [nodeClass, List.mem_cons, List.not_mem_nil, or_false] at hm
      rcases hm with rfl | rfl <;> simp [Robust, contains_iff _ (.vec _), contains_iff _ CTy.str, contains_iff _ (.cls _), comps])
    (.set (.cls 0)) (by simp [Robust, contains_iff _ (.set _), contains_iff _ (.cls _), comps]) K _ h (fun _ => ⟨_, rfl, rfl⟩) T _ hT rfl env v

/-! ## C106 -/

/-- **C106.** The two writers support the same types, and do the same with them, whatever headers are included. -/
theorem C106_writers (inc : Header → Bool) (t : CTy) : resolve .serialize inc t = resolve .write inc t :=
  resolve_congr .serialize .write inc inc (fun f => by cases f <;> rfl) (fun _ => rfl) t

example : resolve .write moreHeaders (.map true true (.chars 3)) = some (.map true (.prim .str)) :=
  (C106_writers moreHeaders (.map true true (.chars 3))).symm.trans rfl

/-- **C106.** The types that an operation supports when all headers are included: those without a part of a form that the operation lacks. -/
theorem C106_supported_iff (op : Op) (t : CTy) : (∃ T, resolve op everything t = some T) ↔ ∀ s, Contains s t → ¬ Lacks op s := by
  rw [← Option.isSome_iff_exists]
  exact supported_iff op t

example (t : CTy) (h : ∃ T, resolve .parse everything (.vec t) = some T) (s : CTy) (hs : Contains s t) (ts : List CTy) : s ≠ .variant ts := by
  rintro rfl
  exact (C106_supported_iff .parse (.vec t)).1 h _ ((contains_iff _ _).2 (.inr ⟨t, by simp [comps], hs⟩)) (.variant ts)

/-- **C106 (partial).** What can be read can be written; both take the type for the same thing if and only if it has no vector of pairs with a string. -/
theorem C106_read_written_partial (t : CTy) (T : Ty) (h : resolve .deserialize everything t = some T) :
    ∃ T', resolve .serialize everything t = some T' ∧ (T = T' ↔ ∀ s, ¬ Contains (.vec (.pair .str s)) t ∧ ¬ Contains (.vec (.pair .view s)) t) := by
  have h1 := (C106_supported_iff .deserialize t).1 ⟨T, h⟩
  obtain ⟨T', hT'⟩ := (C106_supported_iff .serialize t).2 (fun s hs hl => h1 s hs (by
    cases hl with
    | otherInt _ => exact .otherInt _ _ nofun
    | longDouble => exact .longDouble _ nofun
    | optional => exact .optional _ _ nofun
    | view _ hn => exact absurd rfl hn
    | chars _ _ hn => exact absurd rfl hn
    | viewMap _ _ _ hn => exact absurd rfl hn
    | raw _ _ hn => exact absurd rfl hn))
  refine ⟨T', hT', (resolve_same .deserialize .serialize everything everything t T T' h hT').trans ?_⟩
  constructor
  · intro hf s
    exact ⟨fun hs => (nomatch hf.2 ⟨_, hs, s, .inl rfl⟩), fun hs => (nomatch hf.2 ⟨_, hs, s, .inr rfl⟩)⟩
  · intro hf
    exact ⟨fun _ => rfl, fun ⟨u, hu, s, hd⟩ => (hd.elim (fun e => (hf s).1 (e ▸ hu)) (fun e => (hf s).2 (e ▸ hu))).elim⟩

example : ∃ T', resolve .serialize everything (.sptr (.vec (.pair .str .date))) = some T' ∧ T' ≠ .sptr (.vec (.tuple [.prim .str, .prim .date])) := by
  obtain ⟨T', h1, h2⟩ := C106_read_written_partial (.sptr (.vec (.pair .str .date))) _ rfl
  refine ⟨T', h1, fun e => ?_⟩
  exact (h2.1 e.symm .date).1 ((contains_iff _ _).2 (.inr ⟨_, by simp [comps], .self⟩))

/-- **C106 (partial).** What is written can be read back, unless it has string views, arrays of characters, or raw pointers. -/
theorem C106_written_read_partial (t : CTy) (T : Ty) (h : resolve .serialize everything t = some T)
    (hv : ¬ Contains .view t) (hc : ∀ n, ¬ Contains (.chars n) t) (hm : ∀ o s, ¬ Contains (.map o true s) t) (hr : ∀ s, ¬ Contains (.raw s) t) :
    ∃ T', resolve .deserialize everything t = some T' := by
  have h1 := (C106_supported_iff .serialize t).1 ⟨T, h⟩
  refine (C106_supported_iff .deserialize t).2 fun s hs hl => ?_
  cases hl with
  | otherInt => exact h1 _ hs (.otherInt _ _ nofun)
  | longDouble => exact h1 _ hs (.longDouble _ nofun)
  | optional => exact h1 _ hs (.optional _ _ nofun)
  | view => exact hv hs
  | chars => exact hc _ hs
  | viewMap => exact hm _ _ hs
  | raw => exact hr _ hs

example : ∃ T', resolve .deserialize everything (.variant [.str, .set .time]) = some T' :=
  C106_written_read_partial _ _ rfl
    (by simp [contains_iff _ (.variant _), contains_iff _ (.set _), contains_iff _ CTy.str, contains_iff _ CTy.time, comps])
    (by simp [contains_iff _ (.variant _), contains_iff _ (.set _), contains_iff _ CTy.str, contains_iff _ CTy.time, comps])
    (by simp [contains_iff _ (.variant _), contains_iff _ (.set _), contains_iff _ CTy.str, contains_iff _ CTy.time, comps])
    (by simp [contains_iff _ (.variant _), contains_iff _ (.set _), contains_iff _ CTy.str, contains_iff _ CTy.time, comps])

/-- **C106 (partial).** The two readers: the parser supports what the reader of documents does except for variants, the reader of documents supports what the parser does except for
`std::optional` outside classes, and what both support they take for the same thing. -/
theorem C106_readers_partial (t : CTy) :
    (∀ T, resolve .deserialize everything t = some T → (∀ ts, ¬ Contains (.variant ts) t) → resolve .parse everything t = some T) ∧
    (∀ T, resolve .parse everything t = some T → (∀ s, ¬ Contains (.optional s) t) → resolve .deserialize everything t = some T) := by
  constructor
  · intro T h hn
    have h1 := (C106_supported_iff .deserialize t).1 ⟨T, h⟩
    obtain ⟨T', hT'⟩ := (C106_supported_iff .parse t).2 (fun s hs hl => by
      cases hl with
      | otherInt => exact h1 _ hs (.otherInt _ _ nofun)
      | longDouble => exact h1 _ hs (.longDouble _ nofun)
      | optional _ _ hn => exact hn rfl
      | variant => exact hn _ hs
      | view => exact h1 _ hs (.view _ nofun nofun)
      | chars => exact h1 _ hs (.chars _ _ nofun nofun)
      | viewMap => exact h1 _ hs (.viewMap _ _ _ nofun nofun)
      | raw => exact h1 _ hs (.raw _ _ nofun nofun))
    rw [hT', (resolve_same .deserialize .parse everything everything t T T' h hT').2 ⟨fun _ => rfl, fun _ => rfl⟩]
  · intro T h hn
    have h1 := (C106_supported_iff .parse t).1 ⟨T, h⟩
    obtain ⟨T', hT'⟩ := (C106_supported_iff .deserialize t).2 (fun s hs hl => by
      cases hl with
      | otherInt => exact h1 _ hs (.otherInt _ _ nofun)
      | longDouble => exact h1 _ hs (.longDouble _ nofun)
      | optional => exact hn _ hs
      | view => exact h1 _ hs (.view _ nofun nofun)
      | chars => exact h1 _ hs (.chars _ _ nofun nofun)
      | viewMap => exact h1 _ hs (.viewMap _ _ _ nofun nofun)
      | raw => exact h1 _ hs (.raw _ _ nofun nofun))
    rw [hT', (resolve_same .parse .deserialize everything everything t T T' h hT').2 ⟨fun _ => rfl, fun _ => rfl⟩]

example : resolve .parse everything (.vec (.vec .byte)) = some (.vec (.prim .bytes)) :=
  (C106_readers_partial (.vec (.vec .byte))).1 _ rfl (by simp [contains_iff _ (.vec _), contains_iff _ CTy.byte, comps])

/-- **C106 (partial).** Types that can be read have a schema, of the same thing, unless there is a smart pointer to a scalar. -/
theorem C106_schema_partial (t : CTy) (T : Ty) (h : resolve .deserialize everything t = some T)
    (hp : ∀ s, Scalar s → ¬ Contains (.uptr s) t ∧ ¬ Contains (.sptr s) t) : resolve .schema everything t = some T := by
  have h1 := (C106_supported_iff .deserialize t).1 ⟨T, h⟩
  obtain ⟨T', hT'⟩ := (C106_supported_iff .schema t).2 (fun s hs hl => by
    cases hl with
    | otherInt _ _ hn => exact hn rfl
    | longDouble _ hn => exact hn rfl
    | optional => exact h1 _ hs (.optional _ _ nofun)
    | view => exact h1 _ hs (.view _ nofun nofun)
    | chars => exact h1 _ hs (.chars _ _ nofun nofun)
    | viewMap => exact h1 _ hs (.viewMap _ _ _ nofun nofun)
    | raw => exact h1 _ hs (.raw _ _ nofun nofun)
    | uptr _ hsc => exact (hp _ hsc).1 hs
    | sptr _ hsc => exact (hp _ hsc).2 hs)
  rw [hT', (resolve_same .deserialize .schema everything everything t T T' h hT').2 ⟨fun _ => rfl, fun _ => rfl⟩]

example : resolve .schema everything (.uptr (.cls 3)) = some (.uptr (.cls 3)) :=
  C106_schema_partial _ _ rfl fun s hs => by
    constructor
    · simp only [contains_iff _ (.uptr _), contains_iff _ (.cls _), comps, List.mem_singleton, exists_eq_left, List.not_mem_nil, false_and, exists_false, or_false, CTy.uptr.injEq,
        reduceCtorEq]
      rintro rfl
      cases hs
    · simp [contains_iff _ (.uptr _), contains_iff _ (.cls _), comps]

/-- **C106, negation.** Written, but not read: `int*`, `std::string_view`, `char[4]`. Read, but without a schema: `std::unique_ptr<int>`. With a schema, but neither written nor read:
`long double`. Written and read, but not by the parser: `std::variant<int>`. Parsed, but not read otherwise and not written: `std::optional<int>`. -/
theorem C106_not_supported :
    ((resolve .serialize everything (.raw (.int int32))).isSome ∧ resolve .deserialize everything (.raw (.int int32)) = none) ∧
    ((resolve .serialize everything .view).isSome ∧ resolve .deserialize everything .view = none) ∧
    ((resolve .serialize everything (.chars 4)).isSome ∧ resolve .deserialize everything (.chars 4) = none) ∧
    ((resolve .deserialize everything (.uptr (.int int32))).isSome ∧ resolve .schema everything (.uptr (.int int32)) = none) ∧
    ((resolve .schema everything .longDouble).isSome ∧ resolve .serialize everything .longDouble = none ∧ resolve .deserialize everything .longDouble = none) ∧
    ((resolve .deserialize everything (.variant [.int int32])).isSome ∧ resolve .parse everything (.variant [.int int32]) = none) ∧
    ((resolve .parse everything (.optional (.int int32))).isSome ∧ resolve .deserialize everything (.optional (.int int32)) = none ∧
      resolve .serialize everything (.optional (.int int32)) = none) :=
  ⟨⟨rfl, rfl⟩, ⟨rfl, rfl⟩, ⟨rfl, rfl⟩, ⟨rfl, rfl⟩, ⟨rfl, rfl, rfl⟩, ⟨rfl, rfl⟩, ⟨rfl, rfl, rfl⟩⟩

/-! ## C107 -/

/-- The text that an object holds: all characters of a string or a view; for an array or a pointer, the characters before the first NUL. -/
def textOf : Holder → Str
  | .string s => s
  | .view s => s
  | .array cs => cs.takeWhile (· != 0)
  | .pointer cs => cs.takeWhile (· != 0)

theorem text_fills : ∀ cs : Str, cs ≠ [] → (cs.take (cs.length - 1) = cs.takeWhile (· != 0) ↔ cs = cs.takeWhile (· != 0) ++ [0])
  | [], h => absurd rfl h
  | [a], _ => by
    by_cases h : a = 0
    · subst h; decide
    · simp [h]
  | a :: b :: l, _ => by
    by_cases h : a = 0
    · simp [h]
    · have ih := text_fills (b :: l) nofun
      have e : (a :: b :: l).takeWhile (· != 0) = a :: (b :: l).takeWhile (· != 0) := by simp [List.takeWhile_cons, h]
      rw [e]
      simpa using ih

/-- **C107.** The document made from an object that holds a text is the string with this text if and only if the object is a `std::string`, a `std::string_view`, or an array of characters
that is filled by the text and a NUL. -/
theorem C107_exact_partial (env : Env) (c : IntTy) (h : Holder) (T : Ty) (hT : resolve .serialize everything (h.type c) = some T) (hc : ∀ cs, h = .array cs → cs ≠ []) :
    serializeToDocument env T (h.value c) = some (some (.str (textOf h))) ↔
      match h with
      | .string _ => True
      | .view _ => True
      | .array cs => cs = textOf h ++ [0]
      | .pointer _ => False := by
  cases h with
  | string s =>
    cases hT
    simp only [iff_true]
    with_unfolding_all rfl
  | view s =>
    cases hT
    simp only [iff_true]
    with_unfolding_all rfl
  | pointer cs =>
    cases hT
    simp only [iff_false]
    have : serializeToDocument env (.uptr (.prim (.int c))) (.uptr (.prim (.int (charValue c (cs.headD 0))))) = some (some (.num (.int (charValue c (cs.headD 0))))) := by
      with_unfolding_all rfl
    intro h
    have h' := this.symm.trans h
    cases h'
  | array cs =>
    cases hT
    have : serializeToDocument env (.prim .str) (.prim (.str (cs.take (cs.length - 1)))) = some (some (.str (cs.take (cs.length - 1)))) := by
      with_unfolding_all rfl
    have hne := hc cs rfl
    rw [Holder.value, this, textOf]
    simp only [Option.some.injEq, Json.str.injEq]
    exact text_fills cs hne

example : serializeToDocument Demo.env (.prim .str) (.prim (.str (lit "abc"))) = some (some (.str (lit "abc"))) :=
  (C107_exact_partial Demo.env int32 (.array [97, 98, 99, 0]) _ rfl nofun).2 rfl

/-- **C107.** The same for the text: the writer's only call is `String` with this text. -/
theorem C107_text_exact_partial (env : Env) (c : IntTy) (h : Holder) (T : Ty) (hT : resolve .write everything (h.type c) = some T) (hc : ∀ cs, h = .array cs → cs ≠ []) (before : List Event) :
    writeToString env T (h.value c) before = some (true, [.str (textOf h)]) ↔
      match h with
      | .string _ => True
      | .view _ => True
      | .array cs => cs = textOf h ++ [0]
      | .pointer _ => False := by
  cases h with
  | string s =>
    cases hT
    simp only [iff_true]
    with_unfolding_all rfl
  | view s =>
    cases hT
    simp only [iff_true]
    with_unfolding_all rfl
  | pointer cs =>
    cases hT
    simp only [iff_false]
    have : writeToString env (.uptr (.prim (.int c))) (.uptr (.prim (.int (charValue c (cs.headD 0))))) before = some (true, [.num (.int (charValue c (cs.headD 0)))]) := by
      with_unfolding_all rfl
    intro h
    have h' := this.symm.trans h
    cases h'
  | array cs =>
    cases hT
    have : writeToString env (.prim .str) (.prim (.str (cs.take (cs.length - 1)))) before = some (true, [.str (cs.take (cs.length - 1))]) := by
      with_unfolding_all rfl
    rw [Holder.value, this, textOf]
    simp only [Option.some.injEq, Prod.mk.injEq, true_and, List.cons.injEq, Event.str.injEq, and_true]
    exact text_fills cs (hc cs rfl)

example (s : Str) : writeToString Demo.env (.prim .str) (.prim (.str s)) [] = some (true, [.str s]) :=
  (C107_text_exact_partial Demo.env int32 (.view s) _ rfl nofun []).2 trivial

/-- **C107, negation.** `const char* s = "hi"` becomes the number 104; `char s[8] = "hi"` becomes a string of seven characters, five of them NUL; `char s[2] = {'h', 'i'}` becomes `"h"`. -/
theorem C107_not_text (c : IntTy) (env : Env) :
    serializeToDocument env (.uptr (.prim (.int c))) ((Holder.pointer [104, 105, 0]).value c) = some (some (.num (.int 104))) ∧
    serializeToDocument env (.prim .str) ((Holder.array [104, 105, 0, 0, 0, 0, 0, 0]).value c) = some (some (.str [104, 105, 0, 0, 0, 0, 0])) ∧
    serializeToDocument env (.prim .str) ((Holder.array [104, 105]).value c) = some (some (.str [104])) := by
  refine ⟨?_, by with_unfolding_all rfl, by with_unfolding_all rfl⟩
  have : charValue c 104 = 104 := by simp [charValue]
  simp only [Holder.value, List.headD_cons, this]
  with_unfolding_all rfl

mutual
/-- The type in which `std::string` stands for `std::string_view`, also as the key of a map. -/
def owning : CTy → CTy
  | .view => .str
  | .map o _ t => .map o false (owning t)
  | .vec t => .vec (owning t)
  | .arr n t => .arr n (owning t)
  | .set t => .set (owning t)
  | .pair s t => .pair (owning s) (owning t)
  | .tuple ts => .tuple (owningAll ts)
  | .variant ts => .variant (owningAll ts)
  | .optional t => .optional (owning t)
  | .raw t => .raw (owning t)
  | .uptr t => .uptr (owning t)
  | .sptr t => .sptr (owning t)
  | t => t

/-- The types of the components. -/
def owningAll : List CTy → List CTy
  | [] => []
  | t :: ts => owning t :: owningAll ts
end

theorem owning_byte (t : CTy) (h : owning t = .byte) : t = .byte := by
  cases t <;> simp_all [owning]

theorem owning_str (t : CTy) (h : owning t = .str) : t = .str ∨ t = .view := by
  cases t <;> simp_all [owning]

theorem owning_view (t : CTy) : owning t ≠ .view := by
  cases t <;> simp_all [owning]

theorem owning_pair (t s u : CTy) (h : owning t = .pair s u) : ∃ s' u', t = .pair s' u' ∧ owning s' = s ∧ owning u' = u := by
  cases t <;> simp only [owning, reduceCtorEq, CTy.pair.injEq] at h
  exact ⟨_, _, rfl, h.1, h.2⟩

/-- **C107.** An object is written in the same way with `std::string_view` in the place of `std::string`: whichever headers are included, the specialisation that is chosen for a type is
the one that is chosen for the type in which `std::string` stands for each `std::string_view`, as an element, as the key of an ordered or an unordered map, or as the key of a dictionary. -/
theorem C107_types (op : Op) (hop : op = .serialize ∨ op = .write) (inc : Header → Bool) (t : CTy) :
    resolve op inc t = resolve op inc (owning t) := by
  have hv : offers op inc .view = offers op inc .str := by rcases hop with rfl | rfl <;> rfl
  have hm : offers op inc .viewMap = offers op inc .map := by rcases hop with rfl | rfl <;> rfl
  have hp : ∀ t, pointee op t = true := fun t => by rcases hop with rfl | rfl <;> rfl
  have pv : ∀ x, pick op inc .view x = pick op inc .str x := fun x => by unfold pick; rw [hv]
  have pm : ∀ x, pick op inc .viewMap x = pick op inc .map x := fun x => by unfold pick; rw [hm]
  refine (resolve.mutual_induct op inc (fun t => resolve op inc t = resolve op inc (owning t)) (fun ts => resolveAll op inc ts = resolveAll op inc (owningAll ts))
    ?_ ?_ ?_ ?_ ?_ ?_ ?_ ?_ ?_ ?_ ?_ ?_ ?_ ?_ ?_ ?_ ?_ ?_ ?_ ?_ ?_ ?_ ?_ ?_ ?_ ?_ ?_ ?_ ?_ ?_ ?_ ?_ ?_ ?_ ?_ ?_ ?_).1 t
  case refine_21 =>
    intro t n1 n2 n3 ih
    rw [resolve_vec _ _ _ n1 n2 n3, ih, owning, resolve_vec _ _ (owning t)]
    · exact fun h => n1 (owning_byte t h)
    · intro s h
      obtain ⟨s', u', rfl, h1, _⟩ := owning_pair t _ _ h
      rcases owning_str _ h1 with rfl | rfl
      · exact n2 _ rfl
      · exact n3 _ rfl
    · intro s h
      obtain ⟨s', u', rfl, h1, _⟩ := owning_pair t _ _ h
      exact owning_view _ h1
  all_goals
    intros
    simp_all [resolve, resolveAll, owning, owningAll]

example : resolve .serialize everything (.map false true (.vec .view)) = some (.map false (.vec (.prim .str))) ∧
    resolve .write everything (.vec (.pair .view (.map true true (.raw .view)))) = some (.dict (.map true (.uptr (.prim .str)))) := by
  rw [C107_types .serialize (.inl rfl), C107_types .write (.inr rfl)]
  exact ⟨rfl, rfl⟩

end Verif.Props
