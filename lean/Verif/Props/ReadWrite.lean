import Verif.ReadTyped
import Verif.Props.Agree
import Verif.Props.Containers

/-!
# C69, C70: what was read can be written, and is read again
-/

namespace Verif.Props
open Verif.Core Verif.Numeric Verif.EnumConv Verif.Demo

/-! ## C69 -/

/-- **C69 (partial).** A value that `bool deserialize` has reported as read is a complete value of its type (no null pointers), so
that both serializers are defined on it; they succeed if no number of the document exceeds the floating-point type it is
read as. `Ready` and `Furnished` say that members of kind `default` have values of their types before reading.

Missing: documents with a failed member that is masked by a later one, where pointers stay null and writing is undefined
(`C69_masked_null`); numbers that become infinite, which are read but not written (`C69_overflow_unwritable`); types with shared
pointers. -/
theorem C69_dom_written_partial (env : Env) (hu : env.Unshared) (hfair : env.Fair) (hl : StrictLess env.less) (hclk : 0 < env.clk) (t : Ty)
    (ht : t.unshared = true) (root : Json) (hc : Calm env root) (hun : Unmasked env t root) (target : Val) (next : Nat) (v : Val)
    (hfur : Furnished env false false t root) (hr : Ready env false false t target)
    (h : deserializeBool env t root target next = some (true, v)) :
    HasTy env (fun _ => none) v t ∧
    (∀ before, ∃ es, writeToString env t v before = some (finite v, es)) ∧
    (Furnished env true false t root → Ready env true false t target → InReach env t root →
      (∀ before, ∃ es, writeToString env t v before = some (true, es)) ∧ ∃ doc tr, serializeToDocument env t v = some (some doc) ∧ Shows env v t [] doc tr) := by
  have hd := ((C32_exact_partial env hu t ht root hc hun target next).1 v).1 h
  have hty := (decodes_whole env hl hclk false false root t hfur (by simp) (by simp) target v hr hd).1
  have hw : ∀ before, ∃ es, writeToString env t v before = some (finite v, es) := fun before => by
    obtain ⟨es, h1, -⟩ := C29_write_succeeds_iff_finite env hfair _ t v hty before
    exact ⟨es, h1⟩
  refine ⟨hty, hw, fun hfur hr hreach => ?_⟩
  have hf := (decodes_whole env hl hclk true false root t hfur (fun _ => hreach) (by simp) target v hr hd).2.1 rfl
  exact ⟨fun before => hf ▸ hw before, C30_nothing_lost_partial env hfair _ t v hty hf⟩

/-- **C69 (partial).** The same for the variant that throws: a value that it returns. No member can be masked here, except inside
variants.

Missing: as for `C69_dom_written_partial`. -/
theorem C69_returned_written_partial (env : Env) (hu : env.Unshared) (hfair : env.Fair) (hl : StrictLess env.less) (hclk : 0 < env.clk) (t : Ty)
    (ht : t.unshared = true) (root : Json) (hc : Calm env root) (hun : VariantsUnmasked env t root) (next : Nat) (v : Val)
    (hfur : Furnished env false false t root) (h : deserializeThrow env t root next = .returned v) :
    HasTy env (fun _ => none) v t ∧
    (∀ before, ∃ es, writeToString env t v before = some (finite v, es)) ∧
    (Furnished env true false t root → InReach env t root →
      (∀ before, ∃ es, writeToString env t v before = some (true, es)) ∧ ∃ doc tr, serializeToDocument env t v = some (some doc) ∧ Shows env v t [] doc tr) := by
  have hd := ((C33_exact_partial env hu t ht root hc hun next).2 v).1 h
  have hty := (decodes_whole env hl hclk false false root t hfur (by simp) (by simp) _ v (hfur t root .self).1 hd).1
  have hw : ∀ before, ∃ es, writeToString env t v before = some (finite v, es) := fun before => by
    obtain ⟨es, h1, -⟩ := C29_write_succeeds_iff_finite env hfair _ t v hty before
    exact ⟨es, h1⟩
  refine ⟨hty, hw, fun hfur hreach => ?_⟩
  have hf := (decodes_whole env hl hclk true false root t hfur (fun _ => hreach) (by simp) _ v (hfur t root .self).1 hd).2.1 rfl
  exact ⟨fun before => hf ▸ hw before, C30_nothing_lost_partial env hfair _ t v hty hf⟩

/-- **C69 (partial).** The same for the streaming parser, on documents whose objects have all their members, once each.

Missing: documents in which a member is missing, where pointers stay null and writing is undefined (`C69_parser_null`); types
with shared pointers, variants and those of C44 and C45. -/
theorem C69_parsed_written_partial (env : Env) (hu : env.Unshared) (hfair : env.Fair) (hl : StrictLess env.less) (hclk : 0 < env.clk)
    (hdist : env.DistinctNames) (hc : env.BlankCtor) (host : Host) (G : Nat → Prop) (hG : StreamableClasses env G) (hb : TablesBuilt env host) (d : Nat)
    (hroom : Roomy host d) (t : Ty) (hs : Streamable G t) (ht : t.unshared = true) (j : Json) (hdep : j.depth ≤ d) (hp : j.proper = true)
    (hcom : Common env t j) (target : Val) (hbl : Blank env t target) (n : Nat) (v : Val) (hfur : Furnished env false false t j)
    (h : parseBool env host t (.document j) target n = .accepted v) :
    HasTy env (fun _ => none) v t ∧
    (∀ before, ∃ es, writeToString env t v before = some (finite v, es)) ∧
    (Furnished env true false t j → InReach env t j →
      (∀ before, ∃ es, writeToString env t v before = some (true, es)) ∧ ∃ doc tr, serializeToDocument env t v = some (some doc) ∧ Shows env v t [] doc tr) := by
  have hd := (parse_decodes env hu hdist hc host G hG hb d hroom t hs ht j hdep hp hcom target (env.fresh t) hbl n v).1 h
  have hty := (decodes_whole env hl hclk false false j t hfur (by simp) (by simp) _ v (hfur t j .self).1 hd).1
  have hw : ∀ before, ∃ es, writeToString env t v before = some (finite v, es) := fun before => by
    obtain ⟨es, h1, -⟩ := C29_write_succeeds_iff_finite env hfair _ t v hty before
    exact ⟨es, h1⟩
  refine ⟨hty, hw, fun hfur hreach => ?_⟩
  have hf := (decodes_whole env hl hclk true false j t hfur (fun _ => hreach) (by simp) _ v (hfur t j .self).1 hd).2.1 rfl
  exact ⟨fun before => hf ▸ hw before, C30_nothing_lost_partial env hfair _ t v hty hf⟩

/-! ### Where it is false -/

/-- `struct Holder { std::unique_ptr<int> p; int z; };` -/
def holder : Class := ⟨lit "Holder", [⟨lit "p", .required, .uptr tInt⟩, ⟨lit "z", .required, tInt⟩]⟩

/-- A program with one class, whose new objects hold a null pointer. -/
def holderEnv : Env := { Demo.env with
  classes := fun _ => holder
  fresh := fun _ => .obj [.nullptr, .prim (.int 0)]
  ctor := fun _ => .obj [.nullptr, .prim (.int 0)] }

/-- **C69, negation.** `bool deserialize` reports success for `{"z": 1}`, though the member `p` is missing; the pointer is null
afterwards, and writing the object dereferences it. -/
theorem C69_masked_null (next : Nat) : ∃ v,
    deserializeBool holderEnv (.cls 0) (.obj [(lit "z", .num (.int 1))]) (holderEnv.fresh (.cls 0)) next = some (true, v) ∧
    (∀ before, writeToString holderEnv (.cls 0) v before = none) ∧ serializeToDocument holderEnv (.cls 0) v = none :=
  ⟨.obj [.nullptr, .prim (.int 1)], rfl, fun _ => rfl, rfl⟩

/-- **C69, negation.** The parser reports success for `{}`, in both variants; writing the object that it leaves or returns
dereferences a null pointer. -/
theorem C69_parser_null (n : Nat) : ∃ v,
    parseBool holderEnv host (.cls 0) (.document (.obj [])) (holderEnv.fresh (.cls 0)) n = .accepted v ∧
    parseThrow holderEnv host (.cls 0) (.document (.obj [])) n = .returned v ∧
    (∀ before, writeToString holderEnv (.cls 0) v before = none) ∧ serializeToDocument holderEnv (.cls 0) v = none :=
  ⟨.obj [.nullptr, .prim (.int 0)], rfl, rfl, fun _ => rfl, rfl⟩

/-- **C69, negation.** A number that a `float` cannot hold is read as infinity, in every environment; then nothing can be
written. -/
theorem C69_overflow_unwritable (env : Env) (target : Val) (next : Nat) : ∃ v,
    deserializeBool env (.prim (.flt .float)) (.num (.dbl (.fin false 1 128))) target next = some (true, v) ∧
    (∀ before, writeToString env (.prim (.flt .float)) v before = some (false, before)) ∧
    serializeToDocument env (.prim (.flt .float)) v = some none := by
  refine ⟨.prim (.flt (.inf false)), ?_, ?_, ?_⟩
  · rfl
  · intro before; rfl
  · rfl

/-! ## C70 -/

/-- **C70 (partial).** A value that `bool deserialize` has reported as read is written, and what is written is read as the same value
by both variants: reading is stable under rewriting. `Stable`: no dictionaries, enumerators have different names, and the
alternatives of variants are told apart by the shape of the document (numbers with and without fraction, strings, arrays,
objects, ...).

Missing: documents with masked members and overflowing numbers (C69); dictionaries (`C70_dictionary`), enumerations in which a name
occurs twice (`C70_enum_changes`), variants whose alternatives have the same shape (`C70_variant_changes`); types with shared
pointers. -/
theorem C70_dom_partial (env : Env) (hu : env.Unshared) (hfair : env.Fair) (hl : StrictLess env.less) (hclk : 0 < env.clk) (hdist : env.DistinctNames) (t : Ty)
    (ht : t.unshared = true) (root : Json) (hc : Calm env root) (hun : Unmasked env t root) (target : Val) (next : Nat) (v : Val)
    (hfur : Furnished env true true t root) (hr : Ready env true true t target) (hreach : InReach env t root) (hst : Stable env t root)
    (h : deserializeBool env t root target next = some (true, v)) :
    ∃ doc, serializeToDocument env t v = some (some doc) ∧
      ∀ next, deserializeThrow env t doc next = .returned v ∧ ∀ target, deserializeBool env t doc target next = some (true, v) := by
  have hd := ((C32_exact_partial env hu t ht root hc hun target next).1 v).1 h
  obtain ⟨h1, h2, h3⟩ := decodes_whole env hl hclk true true root t hfur (fun _ => hreach) (fun _ => hst) target v hr hd
  exact C26_unshared_roundtrip_partial env hfair hclk hdist v t h1 (h2 rfl) (h3 rfl)

/-- **C70 (partial).** The same for a value returned by the variant that throws.

Missing: as for `C70_dom_partial`. -/
theorem C70_returned_partial (env : Env) (hu : env.Unshared) (hfair : env.Fair) (hl : StrictLess env.less) (hclk : 0 < env.clk) (hdist : env.DistinctNames) (t : Ty)
    (ht : t.unshared = true) (root : Json) (hc : Calm env root) (hun : VariantsUnmasked env t root) (next : Nat) (v : Val)
    (hfur : Furnished env true true t root) (hreach : InReach env t root) (hst : Stable env t root) (h : deserializeThrow env t root next = .returned v) :
    ∃ doc, serializeToDocument env t v = some (some doc) ∧
      ∀ next, deserializeThrow env t doc next = .returned v ∧ ∀ target, deserializeBool env t doc target next = some (true, v) := by
  have hd := ((C33_exact_partial env hu t ht root hc hun next).2 v).1 h
  obtain ⟨h1, h2, h3⟩ := decodes_whole env hl hclk true true root t hfur (fun _ => hreach) (fun _ => hst) _ v (hfur t root .self).1 hd
  exact C26_unshared_roundtrip_partial env hfair hclk hdist v t h1 (h2 rfl) (h3 rfl)

/-- What can be read back from a document can be parsed back. -/
theorem parsable_of (env : Env) (G : Nat → Prop) (hG : StreamableClasses env G) (H : Heap) : ∀ (v : Val) (t : Ty), Streamable G t → HasTy env H v t →
    Readable env v t → Parsable env v t := by
  intro v
  induction v using Val.strong with
  | h v ih =>
    intro t hs ht hr
    have hall : ∀ (vs : List Val) (t : Ty), (∀ w ∈ vs, sizeOf w < sizeOf v) → Streamable G t → AllTy env H vs t → ReadableAll env vs t → ParsableAll env vs t := by
      intro vs t hlt hs ht hr
      induction vs with
      | nil => trivial
      | cons w vs ihs => exact ⟨ih w (hlt w (by simp)) t hs ht.1 hr.1, ihs (fun w hw => hlt w (by simp [hw])) ht.2 hr.2⟩
    have heach : ∀ (vs : List Val) (ts : List Ty), (∀ w ∈ vs, sizeOf w < sizeOf v) → StreamableAll G ts → HasTys env H vs ts → Readables env vs ts → Parsables env vs ts := by
      intro vs
      induction vs with
      | nil => intro ts _ _ _ _; cases ts <;> trivial
      | cons w vs ihs =>
        intro ts hlt hs ht hr
        cases ts with
        | nil => exact ht.elim
        | cons t ts => exact ⟨ih w (hlt w (by simp)) t hs.1 ht.1 hr.1, ihs ts (fun w hw => hlt w (by simp [hw])) hs.2 ht.2 hr.2⟩
    have hmem : ∀ (vs : List Val) (ms : List Member), (∀ w ∈ vs, sizeOf w < sizeOf v) → (∀ m ∈ ms, Streamable G m.ty) → MembersTy env H vs ms →
        ReadableMembers env vs ms → ParsableMembers env vs ms := by
      intro vs
      induction vs with
      | nil => intro ms _ _ _ _; rw [ParsableMembers.eq_def]; trivial
      | cons w vs ihs =>
        intro ms hlt hs ht hr
        cases ms with
        | nil => rw [ParsableMembers.eq_def]; trivial
        | cons m ms =>
          rw [MembersTy.eq_def] at ht
          rw [ReadableMembers.eq_def] at hr
          rw [ParsableMembers.eq_def]
          refine ⟨?_, ihs ms (fun w hw => hlt w (by simp [hw])) (fun m hm => hs m (by simp [hm])) ht.2 hr.2⟩
          have ht1 := ht.1
          have hr1 := hr.1
          have hw := hlt w (by simp)
          have hs1 := hs m (by simp)
          clear ht hr hlt hs ihs
          cases w with
          | absent => trivial
          | present u =>
            cases hk : m.kind with
            | optional => rw [hk] at ht1; exact ih u (by simp at hw; omega) m.ty hs1 ht1 hr1
            | _ => rw [hk] at ht1; cases hm : m.ty <;> rw [hm] at ht1 <;> exact ht1.elim
          | _ =>
            cases hk : m.kind with
            | optional => rw [hk] at ht1; exact ht1.elim
            | _ => rw [hk] at ht1; exact ih _ hw m.ty hs1 ht1 hr1
    cases v with
    | prim p => cases t <;> first | exact hr | exact ht.elim
    | seq vs =>
      cases t <;> first | exact ht.elim | skip
      exact hall vs _ (fun w hw => by have := mem_size hw; simp; omega) hs.2 ht hr
    | tup vs =>
      cases t <;> first | exact ht.elim | skip
      · exact hall vs _ (fun w hw => by have := mem_size hw; simp; omega) hs ht.2 hr
      · exact heach vs _ (fun w hw => by have := mem_size hw; simp; omega) hs ht hr
    | set vs =>
      cases t <;> first | exact ht.elim | skip
      exact ⟨hr.1, hall vs _ (fun w hw => by have := mem_size hw; simp; omega) hs.2 ht.1 hr.2⟩
    | map kvs =>
      cases t <;> first | exact ht.elim | skip
      have ht' := (ValsTy_iff ..).1 ht.1
      have hr' := (ReadableVals_iff ..).1 hr
      refine (ParsableVals_iff ..).2 fun p hp => ih p.2 (by have := mem_size_kv hp; simp; omega) _ hs (ht' p hp) (hr' p hp).2
    | obj vs =>
      cases t <;> first | exact ht.elim | skip
      exact hmem vs _ (fun w hw => by have := mem_size hw; simp; omega) (hG _ hs).2 ht hr
    | uptr w =>
      cases t <;> first | exact ht.elim | skip
      exact ih w (by simp) _ hs ht hr
    | sptr a w =>
      cases t <;> first | exact ht.elim | skip
      exact ih w (by simp) _ hs ht.2 hr.2.2
    | _ => cases t <;> first | exact hs.elim | exact hr.elim

/-- **C70 (partial).** The same for the streaming parser: parse, write, parse. The text that is written must not nest deeper than
there is room for.

Missing: documents whose objects do not have all their members once each (C69); deeper texts; types with shared pointers, variants
and those of C44 and C45. -/
theorem C70_parser_partial (env : Env) (hu : env.Unshared) (hfair : env.Fair) (hl : StrictLess env.less) (hclk : 0 < env.clk)
    (hdist : env.DistinctNames) (hc : env.BlankCtor) (host : Host) (G : Nat → Prop) (hG : StreamableClasses env G) (hb : TablesBuilt env host) (d : Nat)
    (hroom : Roomy host d) (t : Ty) (hs : Streamable G t) (ht : t.unshared = true) (j : Json) (hdep : j.depth ≤ d) (hp : j.proper = true)
    (hcom : Common env t j) (target : Val) (hbl : Blank env t target) (n : Nat) (v : Val) (hfur : Furnished env true true t j) (hreach : InReach env t j)
    (hst : Stable env t j) (h : parseBool env host t (.document j) target n = .accepted v) (before : List Event) :
    ∃ doc, writeToString env t v before = some (true, events doc) ∧
      (doc.depth ≤ d → ∀ target n, Blank env t target → parseBool env host t (.document doc) target n = .accepted v) := by
  have hd := (parse_decodes env hu hdist hc host G hG hb d hroom t hs ht j hdep hp hcom target (env.fresh t) hbl n v).1 h
  obtain ⟨h1, h2, h3⟩ := decodes_whole env hl hclk true true j t hfur (fun _ => hreach) (fun _ => hst) _ v (hfur t j .self).1 hd
  obtain ⟨doc, k1, k2⟩ := C27_unshared_roundtrip_partial env hfair hclk hdist hc host G hG hb d hroom t hs v h1 (h2 rfl)
    (parsable_of env G hG _ v t hs h1 (h3 rfl)) before
  exact ⟨doc, k1, fun h => (k2 h).1⟩

/-! ### Where it is false -/

/-- `struct Wide { int x; std::optional<int> extra; };` and `struct Narrow { int x; };` -/
def wideEnv : Env := { Demo.env with
  classes := fun c => match c with
    | 0 => ⟨lit "Wide", [⟨lit "x", .required, tInt⟩, ⟨lit "extra", .optional, tInt⟩]⟩
    | _ => ⟨lit "Narrow", [⟨lit "x", .required, tInt⟩]⟩ }

/-- **C70, negation.** `{"x": 1, "extra": "bad"}` is read as the second alternative of a variant. What is written for it is read as the
first one. -/
theorem C70_variant_changes (target : Val) (next : Nat) : ∃ v doc w,
    deserializeBool wideEnv (.variant [.cls 0, .cls 1]) (.obj [(lit "x", .num (.int 1)), (lit "extra", .str (lit "bad"))]) target next = some (true, v) ∧
    serializeToDocument wideEnv (.variant [.cls 0, .cls 1]) v = some (some doc) ∧
    deserializeBool wideEnv (.variant [.cls 0, .cls 1]) doc target next = some (true, w) ∧ w ≠ v :=
  ⟨.alt 1 (.obj [.prim (.int 1)]), .obj [(lit "x", .num (.int 1))], .alt 0 (.obj [.prim (.int 1), .absent]), rfl, rfl, rfl, by simp⟩

/-- **C70, negation.** A dictionary is read, but what is written for it is not. -/
theorem C70_dictionary (target : Val) (next : Nat) : ∃ v doc,
    deserializeBool Demo.env (.dict tInt) (.arr [.arr [.str (lit "a"), .num (.int 1)]]) target next = some (true, v) ∧
    serializeToDocument Demo.env (.dict tInt) v = some (some doc) ∧
    ∃ w, deserializeBool Demo.env (.dict tInt) doc target next = some (false, w) :=
  ⟨.dict [(lit "a", .prim (.int 1))], .obj [(lit "a", .num (.int 1))], rfl, rfl, target, rfl⟩

/-- **C70, negation.** An enumeration in which a name belongs to two enumerators: the enumerator read from its other name is written with
the shared name, which is read as the other enumerator. -/
theorem C70_enum_changes (env : Env) (target : Val) (next : Nat) : ∃ table v doc w,
    deserializeBool env (.prim (.enumStr table)) (.str (lit "s")) target next = some (true, v) ∧
    serializeToDocument env (.prim (.enumStr table)) v = some (some doc) ∧
    deserializeBool env (.prim (.enumStr table)) doc target next = some (true, w) ∧ w ≠ v :=
  ⟨[(2, lit "n"), (1, lit "n"), (1, lit "s")], .prim (.int 1), .str (lit "n"), .prim (.int 2), rfl, rfl, rfl, by simp⟩

/-! ## Examples -/

/-- The classes of `plainEnv`; a new `Item` has `count` 7. -/
def stockEnv : Env := { plainEnv with
  fresh := fun t => match t with | .cls 1 => .obj [.prim (.int 0), .absent, .prim (.int 7)] | _ => .prim .null
  ctor := fun t => match t with | .cls 1 => .obj [.prim (.int 0), .absent, .prim (.int 7)] | _ => .prim .null }

/-- `std::variant<int, double, std::string, Item>` -/
abbrev tAny : Ty := .variant [tInt, tDbl, tStr, .cls 1]

/-- `[3, 1.5, "s", {"id": 1, "note": "x"}]` -/
def mixed : Json := .arr [.num (.int 3), .num (.dbl (.fin false 3 (-1))), .str (lit "s"), .obj [(lit "id", .num (.int 1)), (lit "note", .str (lit "x"))]]

/-- What `mixed` is read as. -/
def mixedVal : Val := .seq [.alt 0 (.prim (.int 3)), .alt 1 (.prim (.flt (.fin false 3 (-1)))), .alt 2 (.prim (.str (lit "s"))),
  .alt 3 (.obj [.prim (.int 1), .present (.prim (.str (lit "x"))), .prim (.int 7)])]

example (next : Nat) : deserializeThrow stockEnv (.vec tAny) mixed next = .returned mixedVal := rfl

/-- The types of the nodes of `mixed`. -/
theorem mixed_parts (t : Ty) (j : Json) (h : Part stockEnv (.vec tAny) mixed t j) :
    (t = .vec tAny ∧ j = mixed) ∨ ((t = tAny ∨ t = tInt ∨ t = tDbl ∨ t = tStr ∨ t = .cls 1) ∧ j ∈ mixed.items) ∨ t = tInt ∨ t = tStr := by
  induction h with
  | self => exact .inl ⟨rfl, rfl⟩
  | child t1 j1 t2 j2 _ hc ih =>
    rcases ih with ⟨rfl, rfl⟩ | ⟨rfl | rfl | rfl | rfl | rfl, hj⟩ | rfl | rfl
    · cases hc with
      | vec _ _ _ hj => exact .inr (.inl ⟨.inl rfl, hj⟩)
    · cases hc with
      | variant _ _ _ ht =>
        simp only [List.mem_cons, List.not_mem_nil, or_false] at ht
        exact .inr (.inl ⟨.inr ht, hj⟩)
    · cases hc
    · cases hc
    · cases hc
    · cases hc with
      | cls _ _ m i _ hm hf =>
        have : m = ⟨lit "id", .required, tInt⟩ ∨ m = ⟨lit "note", .optional, tStr⟩ ∨ m = ⟨lit "count", .default, tInt⟩ := by
          simpa [Env.members, stockEnv, plainEnv, plainClasses, item] using hm
        rcases this with rfl | rfl | rfl
        · exact .inr (.inr (.inl rfl))
        · exact .inr (.inr (.inr rfl))
        · exact .inr (.inr (.inl rfl))
    · cases hc
    · cases hc

theorem mixed_furnished (fin back : Bool) : Furnished stockEnv fin back (.vec tAny) mixed := by
  have other : ∀ t v, (∀ ts, t ≠ .tuple ts) → (∀ c, t ≠ .cls c) → Ready stockEnv fin back t v := fun t v h1 h2 => .other t v h1 h2
  have hitem : Ready stockEnv fin back (.cls 1) (.obj [.prim (.int 0), .absent, .prim (.int 7)]) := by
    refine .cls 1 _ (.cons _ _ _ (fun _ => other _ _ (by simp) (by simp)) (by simp) (.cons _ _ _ (by simp) (by simp)
      (.cons _ _ _ (fun _ => other _ _ (by simp) (by simp)) (fun _ => ?_) (.nil _))))
    exact ⟨show int32.InRange 7 by decide, fun _ => rfl, fun _ => trivial⟩
  intro t j h
  rcases mixed_parts t j h with ⟨rfl, -⟩ | ⟨rfl | rfl | rfl | rfl | rfl, -⟩ | rfl | rfl
  all_goals first
    | exact ⟨hitem, hitem⟩
    | exact ⟨other _ _ (by simp) (by simp), other _ _ (by simp) (by simp)⟩

theorem mixed_reach : InReach stockEnv (.vec tAny) mixed := by
  intro t n h
  rcases mixed_parts _ _ h with ⟨h, -⟩ | ⟨h | h | h | h | h, hj⟩ | h | h
  all_goals try cases h
  simp only [mixed, Json.items, List.mem_cons, List.not_mem_nil, or_false, Json.num.injEq, reduceCtorEq] at hj
  rcases hj with rfl | rfl <;> decide +kernel

theorem mixed_stable : Stable stockEnv (.vec tAny) mixed := by
  intro t j h
  rcases mixed_parts t j h with ⟨rfl, -⟩ | ⟨rfl | rfl | rfl | rfl | rfl, -⟩ | rfl | rfl
  all_goals try trivial
  intro i k t t' hk hi hk'
  match i, k, hk with
  | 1, 0, _ => cases hi; cases hk'; decide
  | 2, 0, _ => cases hi; cases hk'; decide
  | 2, 1, _ => cases hi; cases hk'; decide
  | 3, 0, _ => cases hi; cases hk'; decide
  | 3, 1, _ => cases hi; cases hk'; decide
  | 3, 2, _ => cases hi; cases hk'; decide
  | i + 4, _, _ => cases hi

theorem mixed_unmasked : Unmasked stockEnv (.vec tAny) mixed := by
  intro c fields h
  rcases mixed_parts _ _ h with ⟨h, -⟩ | ⟨h | h | h | h | h, hj⟩ | h | h
  all_goals try cases h
  simp only [mixed, Json.items, List.mem_cons, List.not_mem_nil, or_false, Json.obj.injEq, reduceCtorEq, false_or] at hj
  subst hj
  rintro ⟨m, hm, hb⟩
  exfalso
  have : m = ⟨lit "id", .required, tInt⟩ ∨ m = ⟨lit "note", .optional, tStr⟩ ∨ m = ⟨lit "count", .default, tInt⟩ := by
    simpa [Env.members, stockEnv, plainEnv, plainClasses, item] using hm
  rcases this with rfl | rfl | rfl
  · rcases hb with ⟨i, j, h1, h2⟩ | ⟨h1, h2⟩
    · cases h1
      cases h2 with
      | prim _ _ h => exact h _ (.int _ 1 (by decide))
      | array _ _ h => cases h
      | object _ _ h => cases h
    · cases h1
  · rcases hb with ⟨i, j, h1, h2⟩ | ⟨h1, h2⟩
    · cases h1
      cases h2 with
      | prim _ _ h => exact h _ (.str _)
      | array _ _ h => cases h
      | object _ _ h => cases h
    · cases h1
  · rcases hb with ⟨i, j, h1, h2⟩ | ⟨h1, h2⟩
    · cases h1
    · cases h2

theorem mixed_calm : Calm stockEnv mixed := by
  simp only [mixed, Calm, CalmAll, CalmFields, CalmStr, and_true, true_and, ne_eq]
  decide +kernel

theorem stock_fair : stockEnv.Fair := fun _ _ _ => List.reverse_perm _

/-- C69 for `mixed`. -/
example (next : Nat) : HasTy stockEnv (fun _ => none) mixedVal (.vec tAny) ∧ ∃ es, writeToString stockEnv (.vec tAny) mixedVal [] = some (true, es) := by
  obtain ⟨h1, -, h2⟩ := C69_returned_written_partial stockEnv plainEnv_unshared stock_fair demo_strict (by decide) (.vec tAny) rfl mixed mixed_calm
    mixed_unmasked.variants next mixedVal (mixed_furnished false false) rfl
  exact ⟨h1, (h2 (mixed_furnished true false) mixed_reach).1 []⟩

example (next : Nat) (target : Val) : ∃ doc tr, serializeToDocument stockEnv (.vec tAny) mixedVal = some (some doc) ∧ Shows stockEnv mixedVal (.vec tAny) [] doc tr := by
  obtain ⟨-, -, h2⟩ := C69_dom_written_partial stockEnv plainEnv_unshared stock_fair demo_strict (by decide) (.vec tAny) rfl mixed mixed_calm
    mixed_unmasked target next mixedVal (mixed_furnished false false) (.other _ _ (by simp) (by simp)) rfl
  exact (h2 (mixed_furnished true false) (.other _ _ (by simp) (by simp)) mixed_reach).2

/-- C70 for `mixed`: the member `count`, which is not in it, is written, and read again. -/
example (target : Val) (next : Nat) : ∃ doc, serializeToDocument stockEnv (.vec tAny) mixedVal = some (some doc) ∧
      ∀ next, deserializeThrow stockEnv (.vec tAny) doc next = .returned mixedVal ∧
        ∀ target, deserializeBool stockEnv (.vec tAny) doc target next = some (true, mixedVal) :=
  C70_dom_partial stockEnv plainEnv_unshared stock_fair demo_strict (by decide) plain_distinct (.vec tAny) rfl mixed mixed_calm mixed_unmasked target next
    mixedVal (mixed_furnished true true) (.other _ _ (by simp) (by simp)) mixed_reach mixed_stable rfl

example (next : Nat) : ∃ doc, serializeToDocument stockEnv (.vec tAny) mixedVal = some (some doc) ∧
      ∀ next, deserializeThrow stockEnv (.vec tAny) doc next = .returned mixedVal ∧
        ∀ target, deserializeBool stockEnv (.vec tAny) doc target next = some (true, mixedVal) :=
  C70_returned_partial stockEnv plainEnv_unshared stock_fair demo_strict (by decide) plain_distinct (.vec tAny) rfl mixed mixed_calm mixed_unmasked.variants next
    mixedVal (mixed_furnished true true) mixed_reach mixed_stable rfl

/-- The types of the nodes of a tree. -/
theorem tree_parts (root : Json) (t : Ty) (j : Json) (h : Part plainEnv (.cls 4) root t j) : t = .cls 4 ∨ t = .vec (.cls 4) ∨ t = tInt := by
  induction h with
  | self => exact .inl rfl
  | child t1 j1 t2 j2 _ hc ih =>
    rcases ih with rfl | rfl | rfl
    · cases hc with
      | cls _ _ m i _ hm hf =>
        have : m = ⟨lit "value", .required, tInt⟩ ∨ m = ⟨lit "children", .required, .vec (.cls 4)⟩ := by
          simpa [Env.members, plainEnv, plainClasses, tree] using hm
        rcases this with rfl | rfl
        · exact .inr (.inr rfl)
        · exact .inr (.inl rfl)
    · cases hc with
      | vec => exact .inl rfl
    · cases hc

theorem tree_furnished (fin back : Bool) (root : Json) : Furnished plainEnv fin back (.cls 4) root := by
  have other : ∀ t v, (∀ ts, t ≠ .tuple ts) → (∀ c, t ≠ .cls c) → Ready plainEnv fin back t v := fun t v h1 h2 => .other t v h1 h2
  have htree : ∀ v, Ready plainEnv fin back (.cls 4) v := fun v =>
    .cls 4 v (.cons _ _ _ (fun _ => other _ _ (by simp) (by simp)) (by simp) (.cons _ _ _ (fun _ => other _ _ (by simp) (by simp)) (by simp) (.nil _)))
  intro t j h
  rcases tree_parts root t j h with rfl | rfl | rfl
  · exact ⟨htree _, htree _⟩
  · exact ⟨other _ _ (by simp) (by simp), other _ _ (by simp) (by simp)⟩
  · exact ⟨other _ _ (by simp) (by simp), other _ _ (by simp) (by simp)⟩

theorem tree_reach (root : Json) : InReach plainEnv (.cls 4) root := by
  intro t n h
  rcases tree_parts root _ _ h with h | h | h <;> cases h

theorem tree_stable (root : Json) : Stable plainEnv (.cls 4) root := by
  intro t j h
  rcases tree_parts root t j h with rfl | rfl | rfl <;> trivial

/-- C69 and C70 for trees and the parser. -/
example (n : Nat) (v : Val) (h : parseBool plainEnv host (.cls 4) (.document (twoTrees (.num (.int 1)))) (.prim .null) n = .accepted v) :
    HasTy plainEnv (fun _ => none) v (.cls 4) :=
  (C69_parsed_written_partial plainEnv plainEnv_unshared stock_fair demo_strict (by decide) plain_distinct plain_blank_ctor host streamed plain_streamable
    plain_built 100 host_roomy (.cls 4) (.inr (.inr rfl)) rfl _ (by decide +kernel) (by decide +kernel) (treeDoc_common _ (twoTrees_doc _)) _
    (plain_blank_ctor _) n v (tree_furnished _ _ _) h).1

example (n : Nat) (v : Val) (h : parseBool plainEnv host (.cls 4) (.document (twoTrees (.num (.int 1)))) (.prim .null) n = .accepted v) :
    ∃ doc, writeToString plainEnv (.cls 4) v [] = some (true, events doc) ∧
      (doc.depth ≤ 100 → ∀ target n, Blank plainEnv (.cls 4) target → parseBool plainEnv host (.cls 4) (.document doc) target n = .accepted v) :=
  C70_parser_partial plainEnv plainEnv_unshared stock_fair demo_strict (by decide) plain_distinct plain_blank_ctor host streamed plain_streamable
    plain_built 100 host_roomy (.cls 4) (.inr (.inr rfl)) rfl _ (by decide +kernel) (by decide +kernel) (treeDoc_common _ (twoTrees_doc _)) _
    (plain_blank_ctor _) n v (tree_furnished _ _ _) (tree_reach _) (tree_stable _) h []
example : ∃ v, parseBool plainEnv host (.cls 4) (.document (twoTrees (.num (.int 1)))) (.prim .null) 0 = .accepted v := ⟨_, rfl⟩

end Verif.Props
