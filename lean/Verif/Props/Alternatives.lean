import Verif.Props.RoundTrip
import Verif.Props.Safe

/-!
# C26, C46, C68: shared objects in variants

An alternative that is tried and refused leaves the shared objects it has read in the table of references
(deserialize_variant.hpp:31-42, detail/references.hpp:20-28), where those of the alternative that is accepted do not
replace them.
-/

namespace Verif.Props
open Verif.Core Verif.Numeric Verif.Demo

/-- `std::tuple<std::variant<std::tuple<std::shared_ptr<T>, std::string>, std::tuple<std::shared_ptr<U>, int>>, std::shared_ptr<U>>` -/
abbrev choice (t u : Ty) : Ty := .tuple [.variant [.tuple [.sptr t, tStr], .tuple [.sptr u, tInt]], .sptr u]

/-- What is done with a document `[[j, n], {"$ref": "/0/0"}]`. -/
theorem choice_read (env : Env) (hu : env.Unshared) (t u : Ty) (ht : t.unshared = true) (hu' : u.unshared = true) (j : Json) (v w : Val) (n : Int)
    (hn : int32.InRange n) (hj : refMember j = none) (root : Json) (hroot : root = .arr [.arr [j, .num (.int n)], .obj [(lit "$ref", .str (lit "/0/0"))]])
    (h1 : ∀ exc segs, ∃ loc st, deser env root j exc t (env.ctor t) loc segs st = .done true v st)
    (h2 : ∀ exc segs, ∃ loc st, deser env root j exc u (env.ctor u) loc segs st = .done true w st) (exc : Bool) (target : Val) (next : Nat) :
    deser env root root exc (choice t u) target [] [] ⟨[], next⟩ =
      if t = u then .done true (.tup [.alt 1 (.tup [.sptr (next + 1) w, .prim (.int n)]), .sptr next v]) ⟨[([0, 0], (next, t, v))], next + 2⟩ else .ub := by
  have h1' : ∀ exc segs loc st, deser env root j exc t (env.ctor t) loc segs st = .done true v st := by
    intro exc segs loc st
    obtain ⟨loc', st', h⟩ := h1 exc segs
    rw [free env hu j t ht] at h ⊢
    revert h
    generalize pd env j exc t (env.ctor t) segs = r
    intro h
    cases r <;> simp_all [PRes.lift]
  have h2' : ∀ exc segs loc st, deser env root j exc u (env.ctor u) loc segs st = .done true w st := by
    intro exc segs loc st
    obtain ⟨loc', st', h⟩ := h2 exc segs
    rw [free env hu j u hu'] at h ⊢
    revert h
    generalize pd env j exc u (env.ctor u) segs = r
    intro h
    cases r <;> simp_all [PRes.lift]
  have hi : ∀ exc target loc segs' st, deser env root (.num (.int n)) exc tInt target loc segs' st = .done true (.prim (.int n)) st := by
    intro exc target loc segs' st
    rw [deser_prim]
    simp only [desPrim, desInt, (C15_deserialize_int_exact int32 (.int n) n).2 ⟨rfl, hn⟩]
  have hs : ∀ target loc segs' st, deser env root (.num (.int n)) false tStr target loc segs' st = .done false target st := by
    intro target loc segs' st
    rw [deser_prim]
    rfl
  have h4 : refMember (.obj [(lit "$ref", .str (lit "/0/0"))]) = some (.str (lit "/0/0")) := rfl
  have h5 : pointerTokens env (lit "/0/0") = some [lit "0", lit "0"] := rfl
  have h6 : pointerGet root [lit "0", lit "0"] = some [0, 0] := by rw [hroot]; rfl
  have hv : ∀ target segs, deser env root (.arr [j, .num (.int n)]) exc (.variant [.tuple [.sptr t, tStr], .tuple [.sptr u, tInt]]) target [0] segs ⟨[], next⟩ =
      .done true (.alt 1 (.tup [.sptr (next + 1) w, .prim (.int n)])) ⟨[([0, 0], (next, t, v))], next + 2⟩ := by
    intro target segs
    rw [deser_variant]
    simp only [tryAll, deser_tuple, List.length_cons, List.length_nil, if_true, List.map_cons, List.map_nil, runTuple, deser_sptr, hj, h1', h2', hi, hs,
      DState.put, DRes.map, List.lookup, beq_self_eq_true]
  have hr : ∀ target segs, deser env root (.obj [(lit "$ref", .str (lit "/0/0"))]) exc (.sptr u) target [1] segs ⟨[([0, 0], (next, t, v))], next + 2⟩ =
      if t = u then .done true (.sptr next v) ⟨[([0, 0], (next, t, v))], next + 2⟩ else .ub := by
    intro target segs
    rw [deser_sptr]
    simp only [h4, readRef, h5, h6, DState.get, List.lookup]
    by_cases h : t = u
    · simp [h]
    · simp [h]
  conv_lhs => rw [show deser env root root = deser env root (.arr [.arr [j, .num (.int n)], .obj [(lit "$ref", .str (lit "/0/0"))]]) by rw [← hroot]]
  rw [deser_tuple]
  simp only [List.length_cons, List.length_nil, if_true, List.map_cons, List.map_nil, runTuple, hv, hr]
  by_cases h : t = u
  · simp [h, DRes.map]
  · simp [h, DRes.map]

/-- **C46, negation.** For every object: a tuple of a variant whose second alternative holds a pointer to the object, and the same
pointer again. The first alternative has a pointer at the same place and is refused after it. Both readers report success, but
the second pointer is to the object made for the refused alternative: the object is no longer shared. -/
theorem C46_variant_not_shared (env : Env) (hu : env.Unshared) (hfair : env.Fair) (hclk : 0 < env.clk) (hdist : env.DistinctNames) (a : Nat) (t : Ty) (v : Val)
    (hut : t.unshared = true) (ht : HasTy env (fun _ => none) v t) (hf : finite v = true) (hr : Readable env v t) (htop : t.topShared = false)
    (hkey : lit "$ref" ∉ topKeys env v t) (n : Int) (hn : int32.InRange n) :
    ∃ doc, serializeToDocument env (choice t t) (.tup [.alt 1 (.tup [.sptr a v, .prim (.int n)]), .sptr a v]) = some (some doc) ∧
      ∀ next, deserializeThrow env (choice t t) doc next = .returned (.tup [.alt 1 (.tup [.sptr (next + 1) v, .prim (.int n)]), .sptr next v]) ∧
        ∀ target, deserializeBool env (choice t t) doc target next = some (true, .tup [.alt 1 (.tup [.sptr (next + 1) v, .prim (.int n)]), .sptr next v]) := by
  have hno : addrs v = [] := by
    rw [List.eq_nil_iff_forall_not_mem]
    intro b hb
    obtain ⟨t', w, h, -⟩ := addrs_size env _ v t ht b hb
    cases h
  obtain ⟨new, j, tr, h1, h2, h3⟩ := serOk env hfair _ v t [.index 0, .index 0] [] [] ht hf
  have hnew := (h3.noaddr (segs' := []) (pos' := []) (res' := fun _ => none)).1 hno
  subst hnew
  let doc : Json := .arr [.arr [j, .num (.int n)], .obj [(lit "$ref", .str (lit "/0/0"))]]
  have hp : pathStr [Seg.index 0, Seg.index 0] = lit "/0/0" := by decide +kernel
  have hread : ∀ exc segs, ∃ loc st, deser env doc j exc t (env.ctor t) loc segs st = .done true v st := by
    intro exc segs
    have hc : Closed (fun _ => none) [] := by intro a ha; simp [STab.keys] at ha
    obtain ⟨ρ, st, hd, hst⟩ := readBack env hfair hclk hdist _ doc (fun _ => True) v t [.index 0, .index 0] [0, 0] [] _ j id ⟨[], 0⟩ ht hf hr
      (fun _ _ => trivial) (fun h => absurd hno h) h1
      (fun h => absurd hno h) ⟨by simp [STab.keys], by simp [STab.keys], hc⟩ (by intro a s hm _; simp at hm) (by simp [DState.locs])
    exact ⟨[0, 0], ⟨[], 0⟩, by rw [hd, rename_noaddr ρ v hno, hst.idle hno]⟩
  have hnr := noRef env v t [] j tr htop hkey h2
  have hall := fun exc target next => choice_read env hu t t hut hut j v v n hn hnr doc rfl hread hread exc target next
  simp only [if_true] at hall
  refine ⟨doc, ?_, fun next => ⟨?_, fun target => ?_⟩⟩
  · simp [serializeToDocument, ser, serItems, STab.get, h1, STab.put, SRes.map, hp, doc, serPrim]
  · simp only [deserializeThrow, hall]
  · simp only [deserializeBool, hall]

example : ∃ doc, serializeToDocument plainEnv (choice (.vec tInt) (.vec tInt))
      (.tup [.alt 1 (.tup [.sptr 100 (.seq [.prim (.int 1), .prim (.int 2)]), .prim (.int 5)]), .sptr 100 (.seq [.prim (.int 1), .prim (.int 2)])]) = some (some doc) ∧
    ∀ next, deserializeThrow plainEnv (choice (.vec tInt) (.vec tInt)) doc next = .returned
        (.tup [.alt 1 (.tup [.sptr (next + 1) (.seq [.prim (.int 1), .prim (.int 2)]), .prim (.int 5)]), .sptr next (.seq [.prim (.int 1), .prim (.int 2)])]) ∧
      ∀ target, deserializeBool plainEnv (choice (.vec tInt) (.vec tInt)) doc target next = some (true,
        .tup [.alt 1 (.tup [.sptr (next + 1) (.seq [.prim (.int 1), .prim (.int 2)]), .prim (.int 5)]), .sptr next (.seq [.prim (.int 1), .prim (.int 2)])]) :=
  C46_variant_not_shared plainEnv plainEnv_unshared fair (by decide) plain_distinct 100 (.vec tInt) (.seq [.prim (.int 1), .prim (.int 2)]) rfl
    (by simp only [HasTy, AllTy, PrimTy]; exact ⟨by decide, by decide, trivial⟩) (by decide +kernel) (by simp only [Readable, ReadableAll, LeafGood, and_self])
    rfl (by simp [topKeys]) 5 (by decide)

/-- **C68 is false for what the library itself has written**, also when all paths are right: the object of the refused alternative is of
another type. -/
theorem C68_variant_confused (env : Env) (hu : env.Unshared) (n m : Int) (hn : int32.InRange n) (hm : int32.InRange m) (target : Val) (next : Nat) :
    ∃ v doc, HasTy env (fun _ => some (.prim (.int i64), .prim (.int m))) v (choice tInt (.prim (.int i64))) ∧
      serializeToDocument env (choice tInt (.prim (.int i64))) v = some (some doc) ∧
      deserializeBool env (choice tInt (.prim (.int i64))) doc target next = none ∧ deserializeThrow env (choice tInt (.prim (.int i64))) doc next = .ub := by
  have hm' : i64.InRange m := by
    unfold IntTy.InRange at hm ⊢
    have h1 : i64.min ≤ int32.min := by decide
    have h2 : int32.max ≤ i64.max := by decide
    omega
  have hp : pathStr [Seg.index 0, Seg.index 0] = lit "/0/0" := by decide +kernel
  have hr : ∀ (it : IntTy), it.InRange m → ∀ root exc segs, ∃ loc st, deser env root (.num (.int m)) exc (.prim (.int it)) (env.ctor (.prim (.int it))) loc segs st =
      .done true (.prim (.int m)) st := fun it h root exc segs => ⟨[], ⟨[], 0⟩, by
    rw [deser_prim]
    simp only [desPrim, desInt, (C15_deserialize_int_exact it (.int m) m).2 ⟨rfl, h⟩]⟩
  have hall := fun exc target next => choice_read env hu tInt (.prim (.int i64)) rfl rfl (.num (.int m)) (.prim (.int m)) (.prim (.int m)) n hn rfl _ rfl
    (hr int32 hm _) (hr i64 hm' _) exc target next
  simp only [show tInt ≠ .prim (.int i64) by simp [tInt, int32, i64], if_false] at hall
  refine ⟨.tup [.alt 1 (.tup [.sptr 1 (.prim (.int m)), .prim (.int n)]), .sptr 1 (.prim (.int m))], _, ?_, ?_, by rw [deserializeBool, hall], by rw [deserializeThrow, hall]⟩
  · simp only [HasTy, HasTys, PrimTy, and_true]
    exact ⟨⟨_, rfl, by simpa [HasTy, HasTys, PrimTy] using ⟨hm', hn⟩⟩, trivial, hm'⟩
  · simp [serializeToDocument, ser, serItems, STab.get, STab.put, SRes.map, hp, serPrim]

example (target : Val) : ∃ v doc, HasTy plainEnv (fun _ => some (.prim (.int i64), .prim (.int 7))) v (choice tInt (.prim (.int i64))) ∧
    serializeToDocument plainEnv (choice tInt (.prim (.int i64))) v = some (some doc) ∧
    deserializeBool plainEnv (choice tInt (.prim (.int i64))) doc target 0 = none ∧ deserializeThrow plainEnv (choice tInt (.prim (.int i64))) doc 0 = .ub :=
  C68_variant_confused plainEnv plainEnv_unshared 1 7 (by decide) (by decide) target 0

end Verif.Props
