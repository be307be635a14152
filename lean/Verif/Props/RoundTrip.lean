import Verif.RoundTrip
import Verif.Props.Write

/-!
# C26, C46, C48, C57, C58: writing into a document and reading back
-/

namespace Verif.Props
open Verif.Core Verif.Numeric Verif.Demo

/-! ## C26 -/

/-- **C26.** For every value of a supported type that is `Readable` (leaves that have an exact
representation, keys without NUL, no shared objects in sets, variants whose earlier alternatives reject,
no dictionaries, no shared pointer to a shared pointer or to an object with a member `"$ref"`), and whose
places can be expressed in paths if there are shared objects: serialization succeeds, and both readers give
the value back, with new addresses, distinct for distinct objects. The target's content and the addresses
handed out by the allocator do not matter.

Missing: exactly the values excluded by the hypotheses; for some of them the claim is false
(`C48_repeated_object_lost`, `C57_nul_key_lost`, `C58_dictionary_unreadable`, `C26_variant_order`,
`C26_nested_shared`). -/
theorem C26_dom_roundtrip_partial (env : Env) (hfair : env.Fair) (hclk : 0 < env.clk) (hdist : env.DistinctNames) (H : Heap) (v : Val) (t : Ty)
    (ht : HasTy env H v t) (hf : finite v = true) (hr : Readable env v t) (hs : addrs v ≠ [] → env.PlainNames ∧ PathSafe v) :
    ∃ doc, serializeToDocument env t v = some (some doc) ∧
      ∀ next, ∃ ρ, (∀ a ∈ addrs v, ∀ b ∈ addrs v, ρ a = ρ b → a = b) ∧
        deserializeThrow env t doc next = .returned (rename ρ v) ∧
        ∀ target, deserializeBool env t doc target next = some (true, rename ρ v) := by
  obtain ⟨new, doc, tr, h1, h2, h3⟩ := serOk env hfair H v t [] [] [] ht hf
  refine ⟨doc, by simp [serializeToDocument, h1], fun next => ?_⟩
  have hc : Closed H [] := by intro a ha; simp [STab.keys] at ha
  obtain ⟨ρ, st, hd, hst⟩ := readBack env hfair hclk hdist H doc (fun _ => True) v t [] [] [] _ doc id ⟨[], next⟩ ht hf hr
    (fun _ _ => trivial) hs h1
    (fun _ => ⟨by simp, by simp⟩) ⟨by simp [STab.keys], by simp [STab.keys], hc⟩ (by intro a s hm _; simp at hm) (by simp [DState.locs])
  refine ⟨ρ, fun a ha b hb => hst.mirror.inj a ((h3.all hc).2 a ha) b ((h3.all hc).2 b hb), ?_, fun target => ?_⟩
  · simp [deserializeThrow, hd]
  · simp [deserializeBool, hd]

/-- **C26.** Without shared objects the value read is the value written, and nothing is required of names
and keys except what `Readable` says. -/
theorem C26_unshared_roundtrip_partial (env : Env) (hfair : env.Fair) (hclk : 0 < env.clk) (hdist : env.DistinctNames) (v : Val) (t : Ty)
    (ht : HasTy env (fun _ => none) v t) (hf : finite v = true) (hr : Readable env v t) :
    ∃ doc, serializeToDocument env t v = some (some doc) ∧
      ∀ next, deserializeThrow env t doc next = .returned v ∧ ∀ target, deserializeBool env t doc target next = some (true, v) := by
  have hno : addrs v = [] := by
    rw [List.eq_nil_iff_forall_not_mem]
    intro a ha
    obtain ⟨t', w, h, -⟩ := addrs_size env _ v t ht a ha
    cases h
  obtain ⟨doc, h1, h2⟩ := C26_dom_roundtrip_partial env hfair hclk hdist _ v t ht hf hr (fun h => absurd hno h)
  refine ⟨doc, h1, fun next => ?_⟩
  obtain ⟨ρ, -, h3⟩ := h2 next
  rwa [rename_noaddr ρ v hno] at h3

theorem demo_distinct : Demo.env.DistinctNames := fun c => (demo_plain c).2

/-- A string is not read as an integer. -/
theorem int_rejects_str (env : Env) (it : IntTy) (s : Str) : Rejects env (.prim (.int it)) (.str s) := by
  intro root loc segs st
  exact ⟨_, by rw [deser_prim]; rfl⟩

theorem sample_readable : Readable Demo.env sampleVal (.cls 5) := by
  simp only [sampleVal, Readable, Readables, ReadableAll, ReadableVals, ReadableMembers, Env.members, Demo.env, sample, LeafGood, and_true,
    true_and]
  refine ⟨⟨1700000000, by decide, by decide, by decide⟩, by decide, ⟨by decide, by decide +kernel⟩, rfl, ⟨by decide +kernel, by decide +kernel⟩, ?_⟩
  refine ⟨tStr, rfl, by simp [Readable, LeafGood], ?_⟩
  intro k t' hk ht' pos j tr hsh
  have : k = 0 := by omega
  subst this
  simp only [List.getElem?_cons_zero, Option.some.injEq] at ht'
  subst ht'
  cases hsh with
  | prim h =>
    cases h
    exact int_rejects_str _ _ _

example : ∃ doc, serializeToDocument Demo.env (.cls 5) sampleVal = some (some doc) ∧
    ∀ next, deserializeThrow Demo.env (.cls 5) doc next = .returned sampleVal ∧
      ∀ target, deserializeBool Demo.env (.cls 5) doc target next = some (true, sampleVal) := by
  refine C26_unshared_roundtrip_partial Demo.env fair (by decide) demo_distinct _ _ ?_ (by decide +kernel) sample_readable
  exact ty_sample_any _

theorem item7_readable : Readable Demo.env item7 (.cls 1) := by
  simp [item7, Readable, ReadableMembers, Env.members, Demo.env, item, LeafGood]

theorem item8_readable : Readable Demo.env item8 (.cls 1) := by
  simp [item8, Readable, ReadableMembers, Env.members, Demo.env, item, LeafGood]

theorem item_noref (v : Val) (h : v = item7 ∨ v = item8) : lit "$ref" ∉ topKeys Demo.env v (.cls 1) := by
  rcases h with rfl | rfl <;> (simp only [item7, item8, topKeys, Env.members, Demo.env, item]; decide +kernel)

theorem crowd_readable : Readable Demo.env crowd (.vec (.cls 2)) := by
  have h7 := item7_readable
  have h8 := item8_readable
  have k7 := item_noref item7 (.inl rfl)
  have k8 := item_noref item8 (.inr rfl)
  simp only [crowd, Readable, ReadableAll, ReadableMembers, Env.members, Demo.env, both, and_true]
  exact ⟨⟨⟨rfl, k7, h7⟩, ⟨rfl, k8, h8⟩⟩, ⟨⟨rfl, k8, h8⟩, ⟨rfl, k7, h7⟩⟩⟩

theorem crowd_safe : PathSafe crowd := by simp [crowd, PathSafe, PathSafeAll, item7, item8]

example : ∃ doc, serializeToDocument Demo.env (.vec (.cls 2)) crowd = some (some doc) ∧
    ∀ next, ∃ ρ, (∀ a ∈ addrs crowd, ∀ b ∈ addrs crowd, ρ a = ρ b → a = b) ∧
      deserializeThrow Demo.env (.vec (.cls 2)) doc next = .returned (rename ρ crowd) ∧
      ∀ target, deserializeBool Demo.env (.vec (.cls 2)) doc target next = some (true, rename ρ crowd) :=
  C26_dom_roundtrip_partial Demo.env fair (by decide) demo_distinct heap _ _ ty_crowd (by decide +kernel) crowd_readable
    (fun _ => ⟨demo_plain, crowd_safe⟩)

/-- **C26, negation.** A variant of a string and a timestamp: the text of the timestamp is read as the
string, which comes first. -/
theorem C26_variant_order : ∃ t v, HasTy Demo.env Demo.heap v t ∧ ∃ doc, serializeToDocument Demo.env t v = some (some doc) ∧
    ∀ next target, deserializeBool Demo.env t doc target next = some (true, .alt 0 (.prim (.str (lit "1970-01-01T00:00:00Z")))) := by
  refine ⟨.variant [tStr, .prim .time], .alt 1 (.prim (.time 0)), ⟨.prim .time, rfl, by simp [HasTy, PrimTy]; decide⟩,
    .str (lit "1970-01-01T00:00:00Z"), ?_, fun next target => rfl⟩
  have : DateTime.toIsoDatetime Demo.env.junk Demo.env.clk 0 = lit "1970-01-01T00:00:00Z" := by decide +kernel
  simp only [serializeToDocument, ser, List.getElem?_cons_succ, List.getElem?_cons_zero, serPrim_time, this]

/-- **C26, negation.** A shared pointer to a shared pointer, used twice: reading the document ends in a cast
of a pointer to another type. -/
theorem C26_nested_shared : ∃ t v H, HasTy Demo.env H v t ∧ ∃ doc, serializeToDocument Demo.env t v = some (some doc) ∧
    ∀ next target, deserializeBool Demo.env t doc target next = none := by
  refine ⟨.tuple [.sptr (.sptr (.cls 1)), .sptr (.sptr (.cls 1))],
    .tup [.sptr 300 (.sptr 100 item7), .sptr 300 (.sptr 100 item7)],
    (fun a => if a = 300 then some (.sptr (.cls 1), .sptr 100 item7) else heap a), ?_, _, rfl, fun next target => rfl⟩
  have h : ∀ H, HasTy Demo.env H item7 (.cls 1) := fun H => by
    simp only [item7, HasTy, Env.members, Demo.env, item, MembersTy, PrimTy, and_true, true_and]
    exact ⟨by decide, by decide⟩
  simp only [HasTy, HasTys, and_true]
  exact ⟨⟨rfl, rfl, h _⟩, ⟨rfl, rfl, h _⟩⟩

/-! ## C46 -/

/-- The values with all addresses erased. -/
def forget (v : Val) : Val := rename (fun _ => 0) v

/-- **C46.** What is read back has the same shape and the same values as what was written, and two shared
pointers reached from it are equal iff the corresponding pointers of the original are equal. (`addrs` lists
the shared pointers in the order in which they are met.) -/
theorem C46_sharing_partial (env : Env) (hfair : env.Fair) (hclk : 0 < env.clk) (hdist : env.DistinctNames) (hplain : env.PlainNames) (H : Heap)
    (v : Val) (t : Ty) (ht : HasTy env H v t) (hf : finite v = true) (hr : Readable env v t) (hs : PathSafe v) (next : Nat) :
    ∃ doc w, serializeToDocument env t v = some (some doc) ∧ deserializeThrow env t doc next = .returned w ∧
      (∀ target, deserializeBool env t doc target next = some (true, w)) ∧
      forget w = forget v ∧ (addrs w).length = (addrs v).length ∧
      ∀ i k (hi : i < (addrs v).length) (hk : k < (addrs v).length) (hi' : i < (addrs w).length) (hk' : k < (addrs w).length),
        (addrs w)[i] = (addrs w)[k] ↔ (addrs v)[i] = (addrs v)[k] := by
  obtain ⟨doc, h1, h2⟩ := C26_dom_roundtrip_partial env hfair hclk hdist H v t ht hf hr (fun _ => ⟨hplain, hs⟩)
  obtain ⟨ρ, hinj, h3, h4⟩ := h2 next
  refine ⟨doc, rename ρ v, h1, h3, h4, ?_, by simp [addrs_rename], ?_⟩
  · simp only [forget, rename_rename]
    exact rename_congr _ _ _ (fun _ _ => rfl)
  · intro i k hi hk hi' hk'
    simp only [addrs_rename, List.getElem_map]
    exact ⟨hinj _ (List.getElem_mem _) _ (List.getElem_mem _), fun h => by rw [h]⟩

example : addrs crowd = [100, 200, 200, 100] := by decide +kernel
example : ∃ doc w, serializeToDocument Demo.env (.vec (.cls 2)) crowd = some (some doc) ∧ deserializeThrow Demo.env (.vec (.cls 2)) doc 5 = .returned w ∧
    (∀ target, deserializeBool Demo.env (.vec (.cls 2)) doc target 5 = some (true, w)) ∧
    forget w = forget crowd ∧ (addrs w).length = (addrs crowd).length ∧
    ∀ i k (hi : i < (addrs crowd).length) (hk : k < (addrs crowd).length) (hi' : i < (addrs w).length) (hk' : k < (addrs w).length),
      (addrs w)[i] = (addrs w)[k] ↔ (addrs crowd)[i] = (addrs crowd)[k] :=
  C46_sharing_partial Demo.env fair (by decide) demo_distinct demo_plain heap _ _ ty_crowd (by decide +kernel) crowd_readable crowd_safe 5

/-! ## C48 -/

/-- **C48, negation.** For every object: a tuple of a set that contains a pointer to the object, and the
same pointer again. The document is written without error, but reading it fails: the second pointer keeps
what it was before (`y`), and the throwing reader returns normally with it. -/
theorem C48_repeated_object_lost (env : Env) (hfair : env.Fair) (hclk : 0 < env.clk) (hdist : env.DistinctNames) (a : Nat) (t : Ty) (v : Val)
    (ht : HasTy env (fun _ => none) v t) (hf : finite v = true) (hr : Readable env v t) (htop : t.topShared = false)
    (hkey : lit "$ref" ∉ topKeys env v t) :
    ∃ doc, serializeToDocument env (.tuple [.set (.sptr t), .sptr t]) (.tup [.set [.sptr a v], .sptr a v]) = some (some doc) ∧
      ∀ next x y, deserializeBool env (.tuple [.set (.sptr t), .sptr t]) doc (.tup [x, y]) next = some (false, .tup [.set [.sptr next v], y]) ∧
        (env.fresh (.tuple [.set (.sptr t), .sptr t]) = .tup [x, y] →
          deserializeThrow env (.tuple [.set (.sptr t), .sptr t]) doc next = .returned (.tup [.set [.sptr next v], y])) := by
  have hno : addrs v = [] := by
    rw [List.eq_nil_iff_forall_not_mem]
    intro b hb
    obtain ⟨t', w, h, -⟩ := addrs_size env _ v t ht b hb
    cases h
  obtain ⟨new, j, tr, h1, h2, h3⟩ := serOk env hfair _ v t [.index 0] [] [] ht hf
  have hnew := (h3.noaddr (segs' := []) (pos' := []) (res' := fun _ => none)).1 hno
  subst hnew
  let doc : Json := .arr [.arr [j], .obj [(lit "$ref", .str (lit "/0"))]]
  have hp : pathStr [Seg.index 0] = lit "/0" := by decide +kernel
  have hread : ∀ exc st, ∀ segs', deser env doc j exc t (env.ctor t) [0, 0] segs' { refs := [], next := st } = .done true v { refs := [], next := st } := by
    intro exc n segs'
    have hc : Closed (fun _ => none) [] := by intro a ha; simp [STab.keys] at ha
    obtain ⟨ρ, st, hd, hst⟩ := readBack env hfair hclk hdist _ doc (fun _ => True) v t [.index 0] [0, 0] [] _ j id ⟨[], n⟩ ht hf hr
      (fun _ _ => trivial) (fun h => absurd hno h) h1
      (fun h => absurd hno h) ⟨by simp [STab.keys], by simp [STab.keys], hc⟩ (by intro a s hm _; simp at hm) (by simp [DState.locs])
    rw [hd, rename_noaddr ρ v hno, hst.idle hno]
  have hnr := noRef env v t [] j tr htop hkey h2
  have hset : ∀ exc target segs' next, deser env doc (.arr [j]) exc (.set (.sptr t)) target [0] segs' ⟨[], next⟩ =
      .done true (.set [.sptr next v]) ⟨[([0, 0], (next, t, v))], next + 1⟩ := by
    intro exc target segs' next
    rw [deser_set]
    simp only [List.map_cons, List.map_nil, runSame, deser_sptr, hnr, hread, DState.put, List.lookup, DRes.map, List.foldl, setInsert]
  have href : ∀ exc target segs' st, st = (⟨[([0, 0], (st.next - 1, t, v))], st.next⟩ : DState) →
      deser env doc (.obj [(lit "$ref", .str (lit "/0"))]) exc (.sptr t) target [1] segs' st = .done false target st := by
    intro exc target segs' st hst
    rw [deser_sptr]
    have h4 : refMember (.obj [(lit "$ref", .str (lit "/0"))]) = some (.str (lit "/0")) := by simp [refMember, findMember]
    have h5 : pointerTokens env (lit "/0") = some [lit "0"] := by
      have := pointerTokens_pathStr env [.index 0] (by simp) (by intro s hs; simp only [List.mem_singleton] at hs; subst hs; show 0 < 2 ^ 32 - 1; decide)
      rw [hp] at this
      rw [this]
      decide +kernel
    have h6 : pointerGet doc [lit "0"] = some [0] := by
      have : tokenIndex (lit "0") = some 0 := by decide +kernel
      simp [doc, pointerGet, this]
    simp only [h4, readRef, h5, h6]
    rw [hst]
    rfl
  have hall : ∀ exc x y next, deser env doc doc exc (.tuple [.set (.sptr t), .sptr t]) (.tup [x, y]) [] [] ⟨[], next⟩ =
      .done false (.tup [.set [.sptr next v], y]) ⟨[([0, 0], (next, t, v))], next + 1⟩ := by
    intro exc x y next
    rw [deser_tuple]
    simp only [doc, List.length_cons, List.length_nil, if_true, List.map_cons, List.map_nil, runTuple]
    rw [hset]
    simp only
    rw [href _ _ _ _ rfl]
    rfl
  refine ⟨doc, ?_, fun next x y => ⟨?_, fun hfr => ?_⟩⟩
  · simp [serializeToDocument, ser, serItems, serSet, STab.get, h1, STab.put, SRes.map, hp, doc]
  · simp only [deserializeBool, hall]
  · simp only [deserializeThrow, hfr, hall]

example : ∃ doc, serializeToDocument Demo.env (.tuple [.set (.sptr (.cls 1)), .sptr (.cls 1)]) (.tup [.set [.sptr 100 item7], .sptr 100 item7]) =
      some (some doc) ∧
    ∀ next x y, deserializeBool Demo.env (.tuple [.set (.sptr (.cls 1)), .sptr (.cls 1)]) doc (.tup [x, y]) next =
        some (false, .tup [.set [.sptr next item7], y]) ∧
      (Demo.env.fresh (.tuple [.set (.sptr (.cls 1)), .sptr (.cls 1)]) = .tup [x, y] →
        deserializeThrow Demo.env (.tuple [.set (.sptr (.cls 1)), .sptr (.cls 1)]) doc next = .returned (.tup [.set [.sptr next item7], y])) :=
  C48_repeated_object_lost Demo.env fair (by decide) demo_distinct 100 (.cls 1) item7
    (by simp only [item7, HasTy, Env.members, Demo.env, item, MembersTy, PrimTy, and_true, true_and]; exact ⟨by decide, by decide⟩)
    (by decide +kernel) item7_readable rfl (item_noref _ (.inl rfl))

/-- The elements of a set of shared pointers, numbered from `n`. -/
def numbered (n : Nat) : List (Nat × Val) → List Val
  | [] => []
  | p :: ps => .sptr n p.2 :: numbered (n + 1) ps

theorem mem_numbered {n : Nat} {ps : List (Nat × Val)} {x : Val} (h : x ∈ numbered n ps) : ∃ k v, x = .sptr k v ∧ n ≤ k := by
  induction ps generalizing n with
  | nil => simp [numbered] at h
  | cons p ps ih =>
    simp only [numbered, List.mem_cons] at h
    rcases h with rfl | h
    · exact ⟨n, p.2, rfl, Nat.le_refl _⟩
    · obtain ⟨k, v, h1, h2⟩ := ih h
      exact ⟨k, v, h1, by omega⟩

theorem numbered_asc (less : Val → Val → Bool) (hl : ∀ a b v w, a < b → less (.sptr a v) (.sptr b w) = true) (n : Nat) (ps : List (Nat × Val)) :
    (numbered n ps).Pairwise fun x y => less x y = true := by
  induction ps generalizing n with
  | nil => exact List.Pairwise.nil
  | cons p ps ih =>
    refine List.Pairwise.cons ?_ (ih _)
    intro x hx
    obtain ⟨k, v, rfl, hk⟩ := mem_numbered hx
    exact hl _ _ _ _ (by omega)

/-- Writing and reading the rest of a set of shared pointers whose objects contain no shared pointers. -/
theorem set_rest (env : Env) (hfair : env.Fair) (hclk : 0 < env.clk) (hdist : env.DistinctNames) (t : Ty) (htop : t.topShared = false)
    (segs : List Seg) (loc : Loc) (ps : List (Nat × Val)) :
    ∀ (σ : STab), (∀ p ∈ ps, HasTy env (fun _ => none) p.2 t ∧ finite p.2 = true ∧ Readable env p.2 t ∧ lit "$ref" ∉ topKeys env p.2 t) →
      (ps.map (·.1)).Nodup → (∀ p ∈ ps, p.1 ∉ σ.keys) →
      ∃ σ' js, serSet env (ps.map fun p => .sptr p.1 p.2) (.sptr t) segs σ = .done σ' (some js) ∧
        ∀ root k (ρ : Nat → Nat) (st : DState), (∀ a ∈ σ.keys, ∀ b ∈ σ.keys, ρ a = ρ b → a = b) → (∀ a ∈ σ.keys, ρ a < st.next) →
          (∀ ℓ ∈ st.locs, ∀ n ≥ k, ¬ n :: loc <:+ ℓ) →
          ∃ st', ∀ exc segs', runSame env (.sptr t) exc (js.map (deser env root)) k loc segs' st = .done true (numbered st.next ps) st' := by
  induction ps with
  | nil =>
    intro σ _ _ _
    exact ⟨σ, [], by simp [serSet], fun root k ρ st _ _ _ => ⟨st, fun exc segs' => by simp [runSame, numbered]⟩⟩
  | cons p ps ih =>
    intro σ hp hnd hσ
    obtain ⟨a, v⟩ := p
    obtain ⟨ht, hf, hr, hkey⟩ := hp (a, v) (by simp)
    simp only at ht hf hr hkey
    simp only [List.map_cons, List.nodup_cons] at hnd
    have hno : addrs v = [] := by
      rw [List.eq_nil_iff_forall_not_mem]
      intro b hb
      obtain ⟨t', w, h, -⟩ := addrs_size env _ v t ht b hb
      cases h
    obtain ⟨new, j, tr, h1, h2, h3⟩ := serOk env hfair _ v t segs [] σ ht hf
    have hnew := (h3.noaddr (segs' := []) (pos' := []) (res' := fun _ => none)).1 hno
    subst hnew
    simp only [List.nil_append] at h1
    have hk : ∀ τ : STab, a ∉ τ.keys → τ.lookup a = none := by
      intro τ ha
      rw [List.lookup_eq_none_iff]
      intro q hq
      simp only [bne_iff_ne, ne_eq]
      rintro rfl
      exact ha (List.mem_map.2 ⟨q, hq, rfl⟩)
    have ha := hk σ (hσ (a, v) (by simp))
    obtain ⟨σ', js, hs, hread⟩ := ih ((a, segs) :: σ) (fun q hq => hp q (by simp [hq])) hnd.2 (by
      intro q hq
      simp only [STab.keys, List.map_cons, List.mem_cons, not_or]
      refine ⟨?_, hσ q (by simp [hq])⟩
      rintro rfl
      exact hnd.1 (List.mem_map.2 ⟨q, hq, rfl⟩))
    refine ⟨σ', j :: js, by simp [serSet, ser, STab.get, ha, h1, STab.put, hs, SRes.map], ?_⟩
    intro root k ρ st hinj hbound hfresh
    have hc : Closed (fun _ => none) σ := by intro a _ t w h; cases h
    obtain ⟨ρ1, st1, hd, hst⟩ := readBack env hfair hclk hdist _ root (fun _ => False) v t segs (k :: loc) σ σ j ρ { st with next := st.next + 1 } ht hf hr
      (by simp [hno]) (fun h => absurd hno h) h1 (fun h => absurd hno h)
      ⟨hinj, fun b hb => Nat.lt_succ_of_lt (hbound b hb), hc⟩ (by intro a s _ h; exact h.elim) (fun ℓ hℓ => hfresh ℓ hℓ k (Nat.le_refl _))
    have hst1 := hst.idle hno
    subst hst1
    have hnot : st.refs.lookup (k :: loc) = none := by
      rw [List.lookup_eq_none_iff]
      intro q hq
      simp only [bne_iff_ne, ne_eq]
      intro he
      exact hfresh q.1 (List.mem_map.2 ⟨q, hq, rfl⟩) k (Nat.le_refl _) (he ▸ List.suffix_refl _)
    let ρ2 : Nat → Nat := fun x => if x = a then st.next else ρ x
    have hρ : ∀ b ∈ σ.keys, ρ2 b = ρ b := by
      intro b hb
      have : b ≠ a := by rintro rfl; exact hσ (b, v) (by simp) hb
      simp [ρ2, this]
    have hρa : ρ2 a = st.next := by simp [ρ2]
    obtain ⟨st2, hd2⟩ := hread root (k + 1) ρ2 ⟨(k :: loc, (st.next, t, v)) :: st.refs, st.next + 1⟩
      (by
        intro b hb c hc he
        simp only [STab.keys, List.map_cons, List.mem_cons] at hb hc
        rcases hb with rfl | hb <;> rcases hc with rfl | hc
        · rfl
        · rw [hρa, hρ c hc] at he
          have := hbound c hc
          omega
        · rw [hρa, hρ b hb] at he
          have := hbound b hb
          omega
        · rw [hρ b hb, hρ c hc] at he
          exact hinj b hb c hc he)
      (by
        intro b hb
        simp only [STab.keys, List.map_cons, List.mem_cons] at hb
        rcases hb with rfl | hb
        · rw [hρa]; exact Nat.lt_succ_self _
        · rw [hρ b hb]; exact Nat.lt_succ_of_lt (hbound b hb))
      (by
        intro ℓ hℓ n hn hsuf
        simp only [DState.locs, List.map_cons, List.mem_cons] at hℓ
        rcases hℓ with rfl | hℓ
        · have := suffix_inj hsuf (List.suffix_refl _)
          omega
        · exact hfresh ℓ hℓ n (by omega) hsuf)
    refine ⟨st2, fun exc segs' => ?_⟩
    simp only [List.map_cons, runSame, deser_sptr, noRef env v t [] j tr htop hkey h2, hd, rename_noaddr ρ1 v hno, DState.put, hnot, hd2, DRes.map,
      numbered]

/-- **C48.** A set of shared pointers to distinct objects that contain no shared pointers, written alone: it is
read back with all its objects, in the same order (the allocator hands out ascending addresses).

Missing: sets of which an object is met again, inside or outside of the set, for which the claim is false
(`C48_repeated_object_lost`, `C47_inside_set`). -/
theorem C48_set_alone_partial (env : Env) (hfair : env.Fair) (hclk : 0 < env.clk) (hdist : env.DistinctNames)
    (hless : ∀ a b v w, a < b → env.less (.sptr a v) (.sptr b w) = true) (t : Ty) (ps : List (Nat × Val)) (hnd : (ps.map (·.1)).Nodup)
    (ht : ∀ p ∈ ps, HasTy env (fun _ => none) p.2 t ∧ finite p.2 = true ∧ Readable env p.2 t ∧ lit "$ref" ∉ topKeys env p.2 t)
    (htop : t.topShared = false) :
    ∃ doc, serializeToDocument env (.set (.sptr t)) (.set (ps.map fun p => .sptr p.1 p.2)) = some (some doc) ∧
      ∀ next, deserializeThrow env (.set (.sptr t)) doc next = .returned (.set (numbered next ps)) ∧
        ∀ target, deserializeBool env (.set (.sptr t)) doc target next = some (true, .set (numbered next ps)) := by
  obtain ⟨σ', js, hs, hread⟩ := set_rest env hfair hclk hdist t htop [] [] ps [] ht hnd (by simp [STab.keys])
  refine ⟨.arr js, by simp [serializeToDocument, ser, hs, SRes.map], fun next => ?_⟩
  obtain ⟨st', hd⟩ := hread (.arr js) 0 id ⟨[], next⟩ (by simp [STab.keys]) (by simp [STab.keys]) (by simp [DState.locs])
  have h : ∀ exc target, deser env (.arr js) (.arr js) exc (.set (.sptr t)) target [] [] ⟨[], next⟩ = .done true (.set (numbered next ps)) st' := by
    intro exc target
    rw [deser_set]
    simp only [hd, DRes.map]
    rw [insertAll env.less (numbered next ps) [] (numbered_asc env.less hless next ps) (by simp)]
    rfl
  exact ⟨by simp [deserializeThrow, h], fun target => by simp [deserializeBool, h]⟩

theorem ty_item_any (H : Heap) (v : Val) (h : v = item7 ∨ v = item8) : HasTy Demo.env H v (.cls 1) := by
  rcases h with rfl | rfl <;>
    (simp only [item7, item8, HasTy, Env.members, Demo.env, item, MembersTy, PrimTy, and_true, true_and]; exact ⟨by decide, by decide⟩)

example : ∃ doc, serializeToDocument Demo.env (.set (.sptr (.cls 1))) (.set [.sptr 100 item7, .sptr 200 item8]) = some (some doc) ∧
    ∀ next, deserializeThrow Demo.env (.set (.sptr (.cls 1))) doc next = .returned (.set [.sptr next item7, .sptr (next + 1) item8]) ∧
      ∀ target, deserializeBool Demo.env (.set (.sptr (.cls 1))) doc target next = some (true, .set [.sptr next item7, .sptr (next + 1) item8]) := by
  refine C48_set_alone_partial Demo.env fair (by decide) demo_distinct ?_ (.cls 1) [(100, item7), (200, item8)] (by decide) ?_ rfl
  · intro a b v w h
    simpa [Demo.env, less] using h
  · intro p hp
    simp only [List.mem_cons, List.not_mem_nil, or_false] at hp
    rcases hp with rfl | rfl
    · exact ⟨ty_item_any _ _ (.inl rfl), by decide +kernel, item7_readable, item_noref _ (.inl rfl)⟩
    · exact ⟨ty_item_any _ _ (.inr rfl), by decide +kernel, item8_readable, item_noref _ (.inr rfl)⟩

end Verif.Props
