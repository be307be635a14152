import Verif.Props.Alternatives
import Verif.Props.ParseBack

/-!
# C103: data is not taken for references, nor references for data

A shared object that is written for the second time is an object with the only member `"$ref"`. Nothing marks it as a reference:
an object of the data with such a member looks the same.
-/

namespace Verif.Props
open Verif.Core Verif.Numeric Verif.Demo

/-! ## Maps of strings -/

/-- `std::map<std::string, std::string>` -/
abbrev tDir : Ty := .map true tStr

/-- A map with these entries. -/
def dir (kvs : List (Str × Str)) : Val := .map (kvs.map fun p => (p.1, .prim (.str p.2)))

/-- The object with these members. -/
def dirDoc (kvs : List (Str × Str)) : Json := .obj (kvs.map fun p => (p.1, .str p.2))

/-- The keys ascend, as those of a `std::map`. -/
def Sorted (kvs : List (Str × Str)) : Prop := kvs.Pairwise fun p q => strLess p.1 q.1 = true

theorem dir_ty (env : Env) (H : Heap) (kvs : List (Str × Str)) (hs : Sorted kvs) : HasTy env H (dir kvs) tDir := by
  simp only [dir, HasTy]
  refine ⟨?_, (keysAsc_iff _).2 (by unfold Sorted at hs; simpa [KeysAsc, List.pairwise_map] using hs)⟩
  clear hs
  induction kvs with
  | nil => simp [ValsTy]
  | cons p kvs ih => simpa [ValsTy, HasTy, PrimTy] using ih

theorem dir_finite (kvs : List (Str × Str)) : finite (dir kvs) = true := by
  simp only [dir, finite]
  induction kvs with
  | nil => rfl
  | cons p kvs ih => simpa [finite, finiteVals] using ih

theorem dir_readable (env : Env) (kvs : List (Str × Str)) (h0 : ∀ p ∈ kvs, 0 ∉ p.1) : Readable env (dir kvs) tDir := by
  simp only [dir, Readable]
  induction kvs with
  | nil => simp [ReadableVals]
  | cons p kvs ih => simpa [ReadableVals, Readable, LeafGood, h0 p (by simp)] using ih (fun q hq => h0 q (by simp [hq]))

/-- A map of strings is written as the object with its entries. -/
theorem dir_written (env : Env) (kvs : List (Str × Str)) (segs : List Seg) (σ : STab) : ser env (dir kvs) tDir segs σ = .done σ (some (dirDoc kvs)) := by
  have : serEntries (serVals env (kvs.map fun p => (p.1, .prim (.str p.2))) tStr) segs σ = .done σ (some (kvs.map fun p => (p.1, .str p.2))) := by
    induction kvs with
    | nil => rfl
    | cons p kvs ih => simp [serVals, serEntries, ser, serPrim, ih, SRes.map]
  simp [dir, ser, iterate, this, SRes.map, dirDoc]

/-- It is read back, wherever it stands. -/
theorem dir_read (env : Env) (kvs : List (Str × Str)) (hs : Sorted kvs) (h0 : ∀ p ∈ kvs, 0 ∉ p.1) (root : Json) (exc : Bool) (target : Val) (loc : Loc)
    (segs : List Seg) (st : DState) : deser env root (dirDoc kvs) exc tDir target loc segs st = .done true (dir kvs) st := by
  have hrun : ∀ k, runEntries env tStr exc ((kvs.map fun p => (p.1, Json.str p.2)).map fun p => (p.1, deser env root p.2)) k loc segs st =
      .done true (kvs.map fun p => (p.1, .prim (.str p.2))) st := by
    clear hs
    induction kvs with
    | nil => intro k; rfl
    | cons p kvs ih =>
      intro k
      have hc : cstr p.1 = p.1 := cstr_eq _ (h0 p (by simp))
      simp only [List.map_cons, runEntries, deser_prim, desPrim, ih (fun q hq => h0 q (by simp [hq])) (k + 1), DRes.map, hc]
  have hasc : KeysAsc (kvs.map fun p => (p.1, Val.prim (.str p.2))) := by unfold Sorted at hs; simpa [KeysAsc, List.pairwise_map] using hs
  rw [dirDoc, deser_map]
  simp only [hrun, DRes.map, dir]
  rw [rebuild _ _ (List.Perm.refl _) hasc ((keysAsc_iff _).2 hasc).nodup]

/-- The streaming writer writes the same. -/
theorem dir_streamed (env : Env) (kvs : List (Str × Str)) (segs : List Seg) (σ : STab) : wr env (dir kvs) tDir segs σ = .done σ true (events (dirDoc kvs)) := by
  have : writeEntries (wrVals env (kvs.map fun p => (p.1, .prim (.str p.2))) tStr) segs σ = .done σ true (eventsMembers (kvs.map fun p => (p.1, .str p.2))) := by
    induction kvs with
    | nil => rfl
    | cons p kvs ih => simp [wrVals, writeEntries, wr, serPrim, ih, WRes.before, events, eventsMembers]
  simp [dir, wr, iterate, this, WRes.before, WRes.close, dirDoc, events]

theorem dir_ref (kvs : List (Str × Str)) : refMember (dirDoc kvs) = (kvs.lookup (lit "$ref")).map .str := by
  simp only [dirDoc, refMember, findMember_map Json.str, ← findMember_value, Option.map_map]
  rfl

theorem dir_keys (env : Env) (kvs : List (Str × Str)) : topKeys env (dir kvs) tDir = kvs.map (·.1) := by
  simp [dir, topKeys]

theorem sole {k : Str} {kvs : List (Str × Str)} (h : k ∉ kvs.map (·.1)) : kvs.lookup k = none := by
  rw [← findMember_value, Option.map_eq_none_iff]
  cases hf : findMember k kvs with
  | none => rfl
  | some q => exact absurd (List.mem_map_of_mem (findMember_mem hf)) h

theorem entry {k : Str} {kvs : List (Str × Str)} (h : k ∈ kvs.map (·.1)) : ∃ s, kvs.lookup k = some s := by
  cases hl : kvs.lookup k with
  | some s => exact ⟨s, rfl⟩
  | none =>
    obtain ⟨p, hp, rfl⟩ := List.mem_map.1 h
    simp [List.lookup_eq_none_iff] at hl
    exact absurd rfl (hl _ _ hp)

/-- A map as any other. -/
def plainDir : List (Str × Str) := [(lit "host", lit "localhost"), (lit "port", lit "80")]

/-- A map in which JSON schema stores a reference. -/
def refDir : List (Str × Str) := [(lit "$ref", lit "/0"), (lit "title", lit "T")]

theorem plainDir_sorted : Sorted plainDir := by simp [Sorted, plainDir]; decide

theorem refDir_sorted : Sorted refDir := by simp [Sorted, refDir]; decide

theorem plainDir_nonul : ∀ p ∈ plainDir, 0 ∉ p.1 := by simp [plainDir]; decide

theorem refDir_nonul : ∀ p ∈ refDir, 0 ∉ p.1 := by simp [refDir]; decide

/-! ## The DOM reader -/

/-- An object with a member `"$ref"`, read as a shared object when nothing has been read yet. -/
theorem ref_lost (env : Env) (t : Ty) (ms : List (Str × Json)) (hk : lit "$ref" ∈ ms.map (·.1)) (target : Val) (next : Nat) :
    (deserializeBool env (.sptr t) (.obj ms) target next = some (false, target) ∧
      deserializeThrow env (.sptr t) (.obj ms) next = .returned (env.fresh (.sptr t))) ∨
    (deserializeBool env (.sptr t) (.obj ms) target next = none ∧ deserializeThrow env (.sptr t) (.obj ms) next = .ub) := by
  cases hr : refMember (.obj ms) with
  | none =>
    simp only [refMember, findMember_value] at hr
    obtain ⟨p, hp, he⟩ := List.mem_map.1 hk
    simp only [List.lookup_eq_none_iff] at hr
    have := hr p hp
    simp [he] at this
  | some r =>
    have hd : (∀ exc target, deser env (.obj ms) (.obj ms) exc (.sptr t) target [] [] ⟨[], next⟩ = .done false target ⟨[], next⟩) ∨
        (∀ exc target, deser env (.obj ms) (.obj ms) exc (.sptr t) target [] [] ⟨[], next⟩ = .ub) := by
      simp only [deser_sptr, hr]
      cases r with
      | str p =>
        simp only [readRef]
        cases hp : pointerTokens env p with
        | none => exact .inr fun _ _ => rfl
        | some toks =>
          left
          intro exc target
          simp only
          cases h : pointerGet (.obj ms) toks with
          | none => rfl
          | some q => simp only [DState.get, List.lookup]
      | _ => exact .inr fun _ _ => rfl
    rcases hd with hd | hd
    · exact .inl ⟨by rw [deserializeBool, hd], by rw [deserializeThrow, hd]⟩
    · exact .inr ⟨by rw [deserializeBool, hd], by rw [deserializeThrow, hd]⟩

/-- **C103 is violated for every shared map with a key `"$ref"`**, whatever the type of its values: it is written, but what was
written is not read back. It is refused (without an exception: the throwing reader returns the pointer it began with), or reading
it is undefined. -/
theorem C103_lost (env : Env) (hfair : env.Fair) (H : Heap) (o : Bool) (t : Ty) (a : Nat) (kvs : List (Str × Val))
    (ht : HasTy env H (.map kvs) (.map o t)) (hf : finite (.map kvs) = true) (hk : lit "$ref" ∈ kvs.map (·.1)) :
    ∃ doc, serializeToDocument env (.sptr (.map o t)) (.sptr a (.map kvs)) = some (some doc) ∧ ∀ target next,
      (deserializeBool env (.sptr (.map o t)) doc target next = some (false, target) ∧
        deserializeThrow env (.sptr (.map o t)) doc next = .returned (env.fresh (.sptr (.map o t)))) ∨
      (deserializeBool env (.sptr (.map o t)) doc target next = none ∧ deserializeThrow env (.sptr (.map o t)) doc next = .ub) := by
  obtain ⟨new, doc, tr, h1, h2, -⟩ := serOk env hfair H (.map kvs) (.map o t) [] [] [] ht hf
  refine ⟨doc, by rw [serializeToDocument, ser]; simp only [STab.get, List.lookup, h1], fun target next => ?_⟩
  cases h2 with
  | map hp ho hv => exact ref_lost env _ _ (by rw [showsVals_keys hv, (hp.map _).mem_iff]; exact hk) target next

example : ∃ doc, serializeToDocument Demo.env (.sptr (.map false tStr)) (.sptr 1 (dir refDir)) = some (some doc) ∧ ∀ target next,
    (deserializeBool Demo.env (.sptr (.map false tStr)) doc target next = some (false, target) ∧
      deserializeThrow Demo.env (.sptr (.map false tStr)) doc next = .returned (Demo.env.fresh (.sptr (.map false tStr)))) ∨
    (deserializeBool Demo.env (.sptr (.map false tStr)) doc target next = none ∧ deserializeThrow Demo.env (.sptr (.map false tStr)) doc next = .ub) :=
  C103_lost Demo.env fair (fun _ => none) false tStr 1 _ (by have := dir_ty Demo.env (fun _ => none) refDir refDir_sorted; simpa only [dir, HasTy] using this)
    (dir_finite refDir) (by decide)

/-- Both outcomes occur: a string is looked for in vain, a number is used as a string. -/
example : deserializeThrow Demo.env (.sptr tDir) (dirDoc refDir) 0 = .returned (Demo.env.fresh (.sptr tDir)) ∧
    deserializeThrow Demo.env (.sptr (.map true tInt)) (.obj [(lit "$ref", .num (.int 5))]) 0 = .ub := ⟨rfl, rfl⟩

/-- **C103, the DOM reader on one map of strings**: it is read back exactly when it has no key `"$ref"`. -/
theorem C103_one_map (env : Env) (a : Nat) (kvs : List (Str × Str)) (hs : Sorted kvs) (h0 : ∀ p ∈ kvs, 0 ∉ p.1) :
    serializeToDocument env (.sptr tDir) (.sptr a (dir kvs)) = some (some (dirDoc kvs)) ∧
    ((∃ b, ∃ target next, deserializeBool env (.sptr tDir) (dirDoc kvs) target next = some (true, .sptr b (dir kvs))) → lit "$ref" ∉ kvs.map (·.1)) ∧
    (lit "$ref" ∉ kvs.map (·.1) → ∀ next, deserializeThrow env (.sptr tDir) (dirDoc kvs) next = .returned (.sptr next (dir kvs)) ∧
      ∀ target, deserializeBool env (.sptr tDir) (dirDoc kvs) target next = some (true, .sptr next (dir kvs))) := by
  refine ⟨by simp [serializeToDocument, ser, STab.get, dir_written], ?_, fun hk next => ?_⟩
  · rintro ⟨b, target, next, hb⟩ hk
    have hk' : lit "$ref" ∈ (kvs.map fun p => (p.1, Json.str p.2)).map (·.1) := by simpa using hk
    rcases ref_lost env tDir _ hk' target next with h' | h'
    · rw [dirDoc, h'.1] at hb; cases hb
    · rw [dirDoc, h'.1] at hb; cases hb
  · simp only [deserializeThrow, deserializeBool, deser_sptr, dir_ref, sole hk, Option.map_none, dir_read env kvs hs h0]
    exact ⟨trivial, fun _ => trivial⟩

example (target : Val) : deserializeBool Demo.env (.sptr tDir) (dirDoc plainDir) target 7 = some (true, .sptr 7 (dir plainDir)) :=
  ((C103_one_map Demo.env 1 plainDir plainDir_sorted plainDir_nonul).2.2 (by decide) 7).2 target

example (target : Val) (b : Nat) : deserializeBool Demo.env (.sptr tDir) (dirDoc refDir) target 7 ≠ some (true, .sptr b (dir refDir)) :=
  fun h => (C103_one_map Demo.env 1 refDir refDir_sorted refDir_nonul).2.1 ⟨b, target, 7, h⟩ (by decide)

/-- **C103, a map that is not shared**: it is read back, whatever its keys. -/
theorem C103_not_shared_partial (env : Env) (kvs : List (Str × Str)) (hs : Sorted kvs) (h0 : ∀ p ∈ kvs, 0 ∉ p.1) (next : Nat) :
    serializeToDocument env tDir (dir kvs) = some (some (dirDoc kvs)) ∧ deserializeThrow env tDir (dirDoc kvs) next = .returned (dir kvs) ∧
    ∀ target, deserializeBool env tDir (dirDoc kvs) target next = some (true, dir kvs) := by
  simp only [serializeToDocument, dir_written, deserializeThrow, deserializeBool, dir_read env kvs hs h0]
  exact ⟨trivial, trivial, fun _ => trivial⟩

example : deserializeThrow Demo.env tDir (dirDoc refDir) 0 = .returned (dir refDir) := (C103_not_shared_partial Demo.env refDir refDir_sorted refDir_nonul 0).2.1

/-- Two shared objects, the second of which is a map with the key `"$ref"` and the value `"/0"`. -/
theorem ref_taken (env : Env) (t : Ty) (v : Val) (j : Json) (hj : refMember j = none) (kvs : List (Str × Str)) (hk : kvs.lookup (lit "$ref") = some (lit "/0"))
    (exc : Bool) (next : Nat) (hread : deser env (.arr [j, dirDoc kvs]) j exc t (env.ctor t) [0] [.index 0] ⟨[], next + 1⟩ = .done true v ⟨[], next + 1⟩) (target : Val) :
    deser env (.arr [j, dirDoc kvs]) (.arr [j, dirDoc kvs]) exc (.tuple [.sptr t, .sptr tDir]) target [] [] ⟨[], next⟩ =
      if t = tDir then .done true (.tup [.sptr next v, .sptr next v]) ⟨[([0], (next, t, v))], next + 1⟩ else .ub := by
  have hp : pointerTokens env (lit "/0") = some [lit "0"] := rfl
  have hg : pointerGet (.arr [j, dirDoc kvs]) [lit "0"] = some [0] := rfl
  rw [deser_tuple]
  simp only [List.length_cons, List.length_nil, if_true, List.map_cons, List.map_nil, runTuple]
  rw [deser_sptr]
  simp only [hj, hread, DState.put, List.lookup]
  rw [deser_sptr]
  simp only [dir_ref, hk, Option.map_some, readRef, hp, hg, DState.get, List.reverse_cons, List.reverse_nil, List.nil_append, List.lookup, beq_self_eq_true]
  by_cases h : t = tDir
  · simp [h, DRes.map]
  · simp [h, DRes.map]

/-- **C103 is violated without any sign of it.** Two shared maps of strings, the first any without a key `"$ref"`, the second any with the
key `"$ref"` and the value `"/0"`. Both readers report success, but what they return are two pointers to the first map: the contents
of the second are lost. -/
theorem C103_aliased (env : Env) (a b : Nat) (hab : a ≠ b) (kvs kvs' : List (Str × Str)) (hs : Sorted kvs) (h0 : ∀ p ∈ kvs, 0 ∉ p.1)
    (hk : lit "$ref" ∉ kvs.map (·.1)) (hk' : kvs'.lookup (lit "$ref") = some (lit "/0")) :
    ∃ doc, serializeToDocument env (.tuple [.sptr tDir, .sptr tDir]) (.tup [.sptr a (dir kvs), .sptr b (dir kvs')]) = some (some doc) ∧
      ∀ next, deserializeThrow env (.tuple [.sptr tDir, .sptr tDir]) doc next = .returned (.tup [.sptr next (dir kvs), .sptr next (dir kvs)]) ∧
        ∀ target, deserializeBool env (.tuple [.sptr tDir, .sptr tDir]) doc target next = some (true, .tup [.sptr next (dir kvs), .sptr next (dir kvs)]) := by
  refine ⟨.arr [dirDoc kvs, dirDoc kvs'], ?_, fun next => ?_⟩
  · have hne : (b == a) = false := by simpa using fun h => hab h.symm
    simp [serializeToDocument, ser, serItems, STab.get, STab.put, dir_written, SRes.map, List.lookup, hne]
  · have h := fun exc target => ref_taken env tDir (dir kvs) (dirDoc kvs) (by rw [dir_ref, sole hk]; rfl) kvs' hk' exc next
      (dir_read env kvs hs h0 _ exc _ _ _ _) target
    simp only [if_true] at h
    exact ⟨by rw [deserializeThrow, h], fun target => by rw [deserializeBool, h]⟩

example : ∃ doc, serializeToDocument Demo.env (.tuple [.sptr tDir, .sptr tDir]) (.tup [.sptr 1 (dir plainDir), .sptr 2 (dir refDir)]) = some (some doc) ∧
    ∀ next, deserializeThrow Demo.env (.tuple [.sptr tDir, .sptr tDir]) doc next = .returned (.tup [.sptr next (dir plainDir), .sptr next (dir plainDir)]) ∧
      ∀ target, deserializeBool Demo.env (.tuple [.sptr tDir, .sptr tDir]) doc target next = some (true, .tup [.sptr next (dir plainDir), .sptr next (dir plainDir)]) :=
  C103_aliased Demo.env 1 2 (by decide) plainDir refDir plainDir_sorted plainDir_nonul (by decide) rfl

/-- **C103 is violated, with undefined behaviour (C68), for documents that the library has written from data without any reference**: when
the first of the two shared objects is of another type, it is used as a map. -/
theorem C103_confused (env : Env) (hfair : env.Fair) (hclk : 0 < env.clk) (hdist : env.DistinctNames) (a b : Nat) (hab : a ≠ b) (t : Ty) (hne : t ≠ tDir) (v : Val)
    (ht : HasTy env (fun _ => none) v t) (hf : finite v = true) (hr : Readable env v t) (htop : t.topShared = false) (hkey : lit "$ref" ∉ topKeys env v t)
    (kvs : List (Str × Str)) (hk : kvs.lookup (lit "$ref") = some (lit "/0")) :
    ∃ doc, serializeToDocument env (.tuple [.sptr t, .sptr tDir]) (.tup [.sptr a v, .sptr b (dir kvs)]) = some (some doc) ∧
      ∀ next, deserializeThrow env (.tuple [.sptr t, .sptr tDir]) doc next = .ub ∧
        ∀ target, deserializeBool env (.tuple [.sptr t, .sptr tDir]) doc target next = none := by
  have hno : addrs v = [] := by
    rw [List.eq_nil_iff_forall_not_mem]
    intro b hb
    obtain ⟨t', w, h, -⟩ := addrs_size env _ v t ht b hb
    cases h
  obtain ⟨new, j, tr, h1, h2, h3⟩ := serOk env hfair _ v t [.index 0] [] [] ht hf
  have hnew := (h3.noaddr (segs' := []) (pos' := []) (res' := fun _ => none)).1 hno
  subst hnew
  refine ⟨.arr [j, dirDoc kvs], ?_, fun next => ?_⟩
  · have hne : (b == a) = false := by simpa using fun h => hab h.symm
    simp [serializeToDocument, ser, serItems, STab.get, STab.put, h1, dir_written, SRes.map, List.lookup, hne]
  · have hread : ∀ exc, deser env (.arr [j, dirDoc kvs]) j exc t (env.ctor t) [0] [.index 0] ⟨[], next + 1⟩ = .done true v ⟨[], next + 1⟩ := by
      intro exc
      have hc : Closed (fun _ => none) [] := by intro a ha; simp [STab.keys] at ha
      obtain ⟨ρ, st, hd, hst⟩ := readBack env hfair hclk hdist _ (.arr [j, dirDoc kvs]) (fun _ => True) v t [.index 0] [0] [] _ j id ⟨[], next + 1⟩ ht hf hr
        (fun _ _ => trivial) (fun h => absurd hno h) h1
        (fun h => absurd hno h) ⟨by simp [STab.keys], by simp [STab.keys], hc⟩ (by intro a s hm _; simp at hm) (by simp [DState.locs])
      rw [hd, rename_noaddr ρ v hno, hst.idle hno]
    have h := fun exc target => ref_taken env t v j (noRef env v t [] j tr htop hkey h2) kvs hk exc next (hread exc) target
    simp only [hne, if_false] at h
    exact ⟨by rw [deserializeThrow, h], fun target => by rw [deserializeBool, h]⟩

example : ∃ doc, serializeToDocument plainEnv (.tuple [.sptr (.vec tInt), .sptr tDir]) (.tup [.sptr 1 (.seq [.prim (.int 5)]), .sptr 2 (dir refDir)]) = some (some doc) ∧
    ∀ next, deserializeThrow plainEnv (.tuple [.sptr (.vec tInt), .sptr tDir]) doc next = .ub ∧
      ∀ target, deserializeBool plainEnv (.tuple [.sptr (.vec tInt), .sptr tDir]) doc target next = none :=
  C103_confused plainEnv fair (by decide) plain_distinct 1 2 (by decide) (.vec tInt) (by simp) (.seq [.prim (.int 5)])
    (by simp only [HasTy, AllTy, PrimTy]; exact ⟨by decide, trivial⟩) (by decide +kernel) (by simp only [Readable, ReadableAll, LeafGood, and_self])
    rfl (by simp [topKeys]) refDir rfl

/-! ## The streaming parser -/

/-- A map of strings parsed. -/
theorem dir_parsed (env : Env) (host : Host) (K : List HClass) (hroom : ∀ c c', room host K c = true ∧ room host (c :: K) c' = true) (kvs : List (Str × Str))
    (hs : Sorted kvs) (n : Nat) : pval env host (dirDoc kvs) K (.mapStart tDir tStr []) n = .ok (dir kvs) n := by
  have hrun : ∀ acc, loopMap env host (.mapItems tDir :: K) tStr (pfields env host (kvs.map fun p => (p.1, Json.str p.2))) acc n =
      .ok ((kvs.map fun p => (p.1, Val.prim (.str p.2))).foldl (fun s p => mapAssign p.1 p.2 s) acc) n := by
    clear hs
    induction kvs with
    | nil => intro acc; rfl
    | cons p kvs ih =>
      intro acc
      simp only [List.map_cons, pfields, loopMap, withChild, (hroom (.mapItems tDir) _).2, if_true, openP, pval, scalar, leafParse, Prim.stays, id]
      exact ih _
  have hasc : KeysAsc (kvs.map fun p => (p.1, Val.prim (.str p.2))) := by unfold Sorted at hs; simpa [KeysAsc, List.pairwise_map] using hs
  simp only [dirDoc, pval, objectFn, (hroom (.mapItems tDir) (.mapItems tDir)).1, if_true, hrun, LRes.whole, dir]
  rw [rebuild _ _ (List.Perm.refl _) hasc ((keysAsc_iff _).2 hasc).nodup]

/-- **C103, the streaming parser on one map of strings**: it is read back, whatever its keys. -/
theorem C103_parser_map (env : Env) (hc : (env.ctor tDir).entries = []) (host : Host) (hroom : Roomy host 1) (a : Nat) (kvs : List (Str × Str)) (hs : Sorted kvs)
    (before : List Event) (target : Val) (n : Nat) :
    writeToString env (.sptr tDir) (.sptr a (dir kvs)) before = some (true, events (dirDoc kvs)) ∧
    parseBool env host (.sptr tDir) (.document (dirDoc kvs)) target n = .accepted (.sptr n (dir kvs)) := by
  refine ⟨?_, ?_⟩
  · rw [writeToString, wr]
    simp only [STab.get, List.lookup, dir_streamed]
  · rw [parseBool_document]
    simp only [hroom [] _ (by simp), if_true, openP, hc, dir_parsed env host [] (fun c c' => ⟨hroom _ _ (by simp), hroom _ _ (by simp)⟩) kvs hs]
    rfl

example (target : Val) : parseBool Demo.env host (.sptr tDir) (.document (dirDoc refDir)) target 3 = .accepted (.sptr 3 (dir refDir)) :=
  (C103_parser_map Demo.env rfl host (fun K c h => host_roomy K c (by omega)) 1 refDir refDir_sorted [] target 3).2

/-- **C103 is violated for the streaming parser without any sign of it.** Two pointers to the same map of strings are written with a reference. The
parser reports success, but takes the reference for a map with the key `"$ref"`. -/
theorem C103_reference_read (env : Env) (hc : (env.ctor tDir).entries = []) (host : Host) (hroom : Roomy host 3) (a : Nat) (kvs : List (Str × Str)) (hs : Sorted kvs)
    (before : List Event) (target : Val) (n : Nat) :
    ∃ doc, writeToString env (.tuple [.sptr tDir, .sptr tDir]) (.tup [.sptr a (dir kvs), .sptr a (dir kvs)]) before = some (true, events doc) ∧
      parseBool env host (.tuple [.sptr tDir, .sptr tDir]) (.document doc) target n =
        .accepted (.tup [.sptr n (dir kvs), .sptr (n + 1) (dir [(lit "$ref", lit "/0")])]) := by
  refine ⟨.arr [dirDoc kvs, dirDoc [(lit "$ref", lit "/0")]], ?_, ?_⟩
  · have hp : pathStr [Seg.index 0] = lit "/0" := by decide +kernel
    simp [writeToString, wr, wrItems, STab.get, STab.put, List.lookup, dir_streamed, WRes.before, WRes.close, hp, events, eventsItems, eventsMembers, dirDoc]
  · rw [parseBool_document]
    have hp := fun K (hK : K.length ≤ 2) kvs hs n => dir_parsed env host K (fun c c' => ⟨hroom _ _ (by omega), hroom _ _ (by simp; omega)⟩) kvs hs n
    have h1 := hp [.fixed (.tuple [.sptr tDir, .sptr tDir]) 1] (by simp) kvs hs (n + 1)
    have h2 := hp [.fixed (.tuple [.sptr tDir, .sptr tDir]) 2] (by simp) [(lit "$ref", lit "/0")] (by simp [Sorted]) (n + 2)
    have hr := fun K c (hK : K.length ≤ 3) => hroom K c hK
    simp [hr, openP, hc, pval, arrayFn, pitems, loopFix, withChild, h1, h2, LRes.whole, fit]

example (target : Val) : ∃ doc, writeToString Demo.env (.tuple [.sptr tDir, .sptr tDir]) (.tup [.sptr 1 (dir plainDir), .sptr 1 (dir plainDir)]) [] = some (true, events doc) ∧
    parseBool Demo.env host (.tuple [.sptr tDir, .sptr tDir]) (.document doc) target 3 =
      .accepted (.tup [.sptr 3 (dir plainDir), .sptr 4 (dir [(lit "$ref", lit "/0")])]) :=
  C103_reference_read Demo.env rfl host (fun K c h => host_roomy K c (by omega)) 1 plainDir plainDir_sorted [] target 3

end Verif.Props
