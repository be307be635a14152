import Verif.Demo

/-!
# C28–C31, C47, C50: serialization and writing
-/

namespace Verif.Props
open Verif.Core Verif.Numeric Verif.Demo

/-! ## C28 -/

/-- **C28 (partial).** Whenever `write_to_string` succeeds, `serialize_to_document` succeeds and the text of
the document (its events) is the text written. The converse fails, see `C28_nan_member`. -/
theorem C28_same_text_partial (env : Env) (t : Ty) (v : Val) (before es : List Event)
    (h : writeToString env t v before = some (true, es)) :
    ∃ j, serializeToDocument env t v = some (some j) ∧ events j = es := by
  unfold writeToString at h
  split at h
  · simp at h
  · rename_i σ es' hw
    simp only [Option.some.injEq, Prod.mk.injEq, true_and] at h
    subst h
    obtain ⟨j, h1, h2⟩ := wr_ser env v _ _ _ _ _ hw
    exact ⟨j, by simp [serializeToDocument, h1], h2⟩
  · simp at h

/-- **C28.** For types without classes both fail together: one succeeds iff the other does. -/
theorem C28_class_free (env : Env) (t : Ty) (ht : t.classFree = true) (v : Val) (before es : List Event)
    (h : writeToString env t v before = some (false, es)) :
    serializeToDocument env t v = some none := by
  unfold writeToString at h
  split at h
  · simp at h
  · simp at h
  · rename_i σ es' hw
    have := wr_fail env v _ _ _ _ _ ht hw
    simp [serializeToDocument, this]

/-- **C28, negation.** An object with a NaN member: the writer reports failure, the DOM serializer reports
success. -/
theorem C28_nan_member : ∃ (v : Val) (j : Json), HasTy Demo.env Demo.heap v (.cls 0) ∧
    writeToString Demo.env (.cls 0) v [] = some (false, []) ∧
    serializeToDocument Demo.env (.cls 0) v = some (some j) :=
  ⟨badPoint, _, ty_badPoint, rfl, rfl⟩

example : writeToString Demo.env (.vec (.cls 2)) crowd [] = some (true, events (.arr [
    .obj [(lit "left", .obj [(lit "id", .num (.int 7)), (lit "note", .str (lit "ok")), (lit "count", .num (.int 2))]),
      (lit "right", .obj [(lit "id", .num (.int 8)), (lit "count", .num (.int 0))])],
    .obj [(lit "left", .obj [(lit "$ref", .str (lit "/0/right"))]), (lit "right", .obj [(lit "$ref", .str (lit "/0/left"))])]])) := by
  rfl
example : ∃ j, serializeToDocument Demo.env (.vec (.cls 2)) crowd = some (some j) ∧
    writeToString Demo.env (.vec (.cls 2)) crowd [] = some (true, events j) := by
  obtain ⟨j, h1, h2⟩ := C28_same_text_partial Demo.env (.vec (.cls 2)) crowd [] _ rfl
  exact ⟨j, h1, by rw [h2]; rfl⟩
example : serializeToDocument Demo.env (.map true (.vec tDbl)) (.map [(lit "a", .seq [.prim (.flt .nan)])]) = some none :=
  C28_class_free Demo.env _ rfl _ [] [] rfl

/-! ## C29 -/

/-- **C29.** For every well-typed value with non-null pointers: `write_to_string` returns `true` iff all
floating-point numbers reached from it are finite, and on failure the destination is unchanged. -/
theorem C29_write_succeeds_iff_finite (env : Env) (hfair : env.Fair) (H : Heap) (t : Ty) (v : Val) (ht : HasTy env H v t)
    (before : List Event) :
    ∃ es, writeToString env t v before = some (finite v, es) ∧ (finite v = false → es = before) := by
  obtain ⟨σ', es, h1, -⟩ := wr_total env hfair H v t [] [] ht (by intro a ha; simp [STab.keys] at ha)
  unfold writeToString
  rw [h1]
  cases finite v with
  | true => exact ⟨es, rfl, by simp⟩
  | false => exact ⟨before, rfl, by simp⟩

example : ∃ es, writeToString Demo.env (.cls 0) badPoint [.str (lit "old")] = some (false, es) ∧ es = [.str (lit "old")] := by
  obtain ⟨es, h1, h2⟩ := C29_write_succeeds_iff_finite Demo.env fair heap (.cls 0) badPoint ty_badPoint [.str (lit "old")]
  exact ⟨es, h1, h2 rfl⟩
example : ∃ es, writeToString Demo.env (.vec (.cls 2)) crowd [] = some (true, es) := by
  obtain ⟨es, h1, -⟩ := C29_write_succeeds_iff_finite Demo.env fair heap _ crowd ty_crowd []
  exact ⟨es, h1⟩

/-! ## C30 -/

/-- **C30, negation.** `serialize_to_document` reports success but the required member `y` is not in the
document. -/
theorem C30_member_lost : ∃ v j, HasTy Demo.env Demo.heap v (.cls 0) ∧
    (∃ m ∈ Demo.env.members 0, m.name = lit "y" ∧ m.kind = .required) ∧
    serializeToDocument Demo.env (.cls 0) v = some (some (.obj j)) ∧ lit "y" ∉ j.map (·.1) :=
  ⟨badPoint, [(lit "x", .num (.dbl (.fin false 1 0)))], ty_badPoint, ⟨⟨lit "y", .required, tDbl⟩, by decide, rfl, rfl⟩, rfl, by decide⟩

/-- **C30 (partial).** For every well-typed value whose floating-point numbers are all finite,
`serialize_to_document` succeeds and the document shows the value completely (`Shows`). -/
theorem C30_nothing_lost_partial (env : Env) (hfair : env.Fair) (H : Heap) (t : Ty) (v : Val) (ht : HasTy env H v t)
    (hf : finite v = true) : ∃ j tr, serializeToDocument env t v = some (some j) ∧ Shows env v t [] j tr := by
  obtain ⟨n, j, tr, h1, h2, -⟩ := serOk env hfair H v t [] [] [] ht hf
  exact ⟨j, tr, by simp [serializeToDocument, h1], h2⟩

example : ∃ j tr, serializeToDocument Demo.env (.cls 0) goodPoint = some (some j) ∧ Shows Demo.env goodPoint (.cls 0) [] j tr :=
  C30_nothing_lost_partial Demo.env fair heap _ _ ty_goodPoint rfl

/-! ## C31 -/

/-- Whether an optional member is not engaged. -/
def isAbsent : Val → Bool
  | .absent => true
  | _ => false

/-- Names of the members of an object that are to be written: all but the disengaged optional ones, in
declaration order. -/
def engagedNames (ms : List Member) (vs : List Val) : List Str :=
  ((ms.zip vs).filter fun p => !(decide (p.1.kind = .optional) && isAbsent p.2)).map (·.1.name)

theorem showsMembers_names {env : Env} {vs : List Val} : ∀ {ms : List Member} {pos : List Nat} {k : Nat} {js : List (Str × Json)} {tr : List Occ},
    ShowsMembers env vs ms pos k js tr → js.map (·.1) = engagedNames ms vs := by
  induction vs with
  | nil =>
    intro ms pos k js tr h
    cases h
    rfl
  | cons v vs ih =>
    intro ms pos k js tr h
    cases h with
    | skip ho hr => rw [ih hr]; simp [engagedNames, ho, isAbsent]
    | engaged ho hs hr => simp only [List.map_cons, ih hr]; simp [engagedNames, ho, isAbsent]
    | plain ho hs hr => simp only [List.map_cons, ih hr]; simp [engagedNames, ho]

/-- **C31.** Wherever an object of a class is serialized (any place, any reference table), the result lists,
in declaration order, exactly the non-optional members and the engaged optional ones. For objects with
non-finite numbers see `C30_member_lost`. -/
theorem C31_members_in_order_partial (env : Env) (hfair : env.Fair) (H : Heap) (c : Nat) (vs : List Val)
    (ht : HasTy env H (.obj vs) (.cls c)) (hf : finite (.obj vs) = true) (segs : List Seg) (σ : STab) :
    ∃ σ' js, ser env (.obj vs) (.cls c) segs σ = .done σ' (some (.obj js)) ∧ js.map (·.1) = engagedNames (env.members c) vs := by
  obtain ⟨n, j, tr, h1, h2, -⟩ := serOk env hfair H (.obj vs) (.cls c) segs [] σ ht hf
  cases h2 with
  | cls h3 => exact ⟨_, _, h1, showsMembers_names h3⟩

/-- **C31.** Without any assumption (also with non-finite numbers): an object never gets a member that is not
engaged, nor one twice, nor out of order. -/
theorem C31_never_extra (env : Env) (c : Nat) (vs : List Val) (segs : List Seg) (σ σ' : STab) (r : Option Json)
    (h : ser env (.obj vs) (.cls c) segs σ = .done σ' r) :
    ∃ js, r = some (.obj js) ∧ (js.map (·.1)).Sublist (engagedNames (env.members c) vs) := by
  have key : ∀ (vs : List Val) (ms : List Member) (σ σ' : STab) (r : Option (List (Str × Json))),
      serMembers env vs ms segs σ = .done σ' r → ∃ js, r = some js ∧ (js.map (·.1)).Sublist (engagedNames ms vs) := by
    intro vs
    induction vs with
    | nil =>
      intro ms σ σ' r h
      cases ms with
      | nil => simp only [serMembers, SRes.done.injEq] at h; exact ⟨[], h.2.symm, by simp⟩
      | cons => simp [serMembers] at h
    | cons v vs ih =>
      intro ms σ σ' r h
      cases ms with
      | nil => simp [serMembers] at h
      | cons m ms =>
        rw [serMembers_cons] at h
        cases hk : fieldOf m.kind v with
        | bad => simp [hk] at h
        | skip =>
          obtain ⟨h1, rfl⟩ := fieldOf_skip hk
          obtain ⟨js, h2, h3⟩ := ih ms σ σ' r (by simpa only [hk] using h)
          exact ⟨js, h2, by simpa [engagedNames, h1, isAbsent] using h3⟩
        | here w =>
          have hne : engagedNames (m :: ms) (v :: vs) = m.name :: engagedNames ms vs := by
            rcases fieldOf_here hk with ⟨h1, rfl⟩ | ⟨h1, rfl⟩
            · simp [engagedNames, isAbsent]
            · simp [engagedNames, h1]
          simp only [hk] at h
          cases hs : ser env w m.ty (Seg.name m.name :: segs) σ with
          | ub => simp [hs] at h
          | done σ1 o =>
            cases o with
            | none =>
              obtain ⟨js, h2, h3⟩ := ih ms σ1 σ' r (by simpa only [hs] using h)
              exact ⟨js, h2, by rw [hne]; exact h3.cons _⟩
            | some j =>
              simp only [hs] at h
              cases hr : serMembers env vs ms segs σ1 with
              | ub => simp [hr, SRes.map] at h
              | done σ2 r2 =>
                obtain ⟨js, rfl, h3⟩ := ih ms σ1 σ2 r2 hr
                simp only [hr, SRes.map, Option.map_some, SRes.done.injEq] at h
                exact ⟨_, h.2.symm, by rw [hne]; simpa using h3⟩
  simp only [ser] at h
  cases hs : serMembers env vs (env.members c) segs σ with
  | ub => simp [hs, SRes.map] at h
  | done σ2 r2 =>
    obtain ⟨js, rfl, h3⟩ := key _ _ _ _ _ hs
    simp only [hs, SRes.map, Option.map_some, SRes.done.injEq] at h
    exact ⟨js, h.2.symm, h3⟩

example : ∃ js, serializeToDocument Demo.env (.cls 0) badPoint = some (some (.obj js)) ∧
    (js.map (·.1)).Sublist [lit "x", lit "y"] := by
  obtain ⟨js, h1, h2⟩ := C31_never_extra Demo.env 0 _ [] [] _ _ (show ser Demo.env badPoint (.cls 0) [] [] = .done _ _ from rfl)
  exact ⟨js, by rw [← h1]; rfl, h2⟩
example : engagedNames (Demo.env.members 1) [.prim (.int 8), .absent, .prim (.int 0)] = [lit "id", lit "count"] := by decide +kernel
example : ∃ σ' js, ser Demo.env item8 (.cls 1) [.index 3] [] = .done σ' (some (.obj js)) ∧ js.map (·.1) = [lit "id", lit "count"] :=
  C31_members_in_order_partial Demo.env fair heap 1 _ ty_item8 rfl [.index 3] []

/-! ## C50 -/

/-- **C50.** The document shows each shared object reached from the value in full exactly once, and every
other occurrence as a reference after the full text. -/
theorem C50_written_once (env : Env) (hfair : env.Fair) (H : Heap) (t : Ty) (v : Val) (ht : HasTy env H v t)
    (hf : finite v = true) : ∃ j tr, serializeToDocument env t v = some (some j) ∧ Shows env v t [] j tr ∧
      (fulls tr).Nodup ∧ (∀ a, a ∈ fulls tr ↔ a ∈ addrs v) ∧
      (∀ tr1 a p tr2, tr = tr1 ++ .ref a p :: tr2 → a ∈ fulls tr1) := by
  obtain ⟨n, j, tr, h1, h2, h3⟩ := serOk env hfair H v t [] [] [] ht hf
  refine ⟨j, tr, by simp [serializeToDocument, h1], h2, h3.good.nodup.1, fun a => ⟨h3.sub a, ?_⟩, ?_⟩
  · intro ha
    have := (h3.all (by intro a ha; simp [STab.keys] at ha)).2 a ha
    have hk := h3.keys
    simp only [List.append_nil] at this
    rw [hk] at this
    simpa using this
  · intro tr1 a p tr2 he
    have hg : Good [] (tr1 ++ .ref a p :: tr2) := he ▸ h3.good
    exact hg.ref_before

example : ∃ j tr, serializeToDocument Demo.env (.vec (.cls 2)) crowd = some (some j) ∧ Shows Demo.env crowd (.vec (.cls 2)) [] j tr ∧
      (fulls tr).Nodup ∧ (∀ a, a ∈ fulls tr ↔ a ∈ addrs crowd) ∧
      (∀ tr1 a p tr2, tr = tr1 ++ .ref a p :: tr2 → a ∈ fulls tr1) :=
  C50_written_once Demo.env fair heap _ _ ty_crowd rfl
example : addrs crowd = [100, 200, 200, 100] := rfl

/-! ## C47 -/

/-- **C47 (partial).** If names and keys are not empty and contain neither `/` nor `~`, containers have
fewer than `2^32 - 1` elements and shared objects do not occur inside sets, then the path text of every
reference, evaluated as a JSON pointer on the produced document, addresses the node where the object is
written in full. -/
theorem C47_paths_resolve_partial (env : Env) (hfair : env.Fair) (H : Heap) (t : Ty) (v : Val) (ht : HasTy env H v t)
    (hf : finite v = true) (hn : env.PlainNames) (hs : PathSafe v) :
    ∃ j tr, serializeToDocument env t v = some (some j) ∧ Shows env v t [] j tr ∧ Good [] tr ∧
      ∀ a p, Occ.ref a p ∈ tr → ∃ pos toks, Occ.full a pos ∈ tr ∧ pointerTokens env p = some toks ∧
        pointerGet j toks = some pos.reverse := by
  obtain ⟨n, j, tr, h1, h2, h3⟩ := serOk env hfair H v t [] [] [] ht hf
  refine ⟨j, tr, by simp [serializeToDocument, h1], h2, h3.good, ?_⟩
  intro a p hm
  obtain ⟨s, h4, rfl, h6⟩ := h3.refs a p hm
  simp only [List.append_nil] at h4
  obtain ⟨s', q, h7, h8, h9, h10⟩ := h3.locs ⟨hn, hs⟩ a s h4
  simp only [List.append_nil] at h7 h8
  subst h7
  exact ⟨q, _, h8, pointerTokens_pathStr env s (h6 ⟨hn, hs⟩ (by intro a s hm; simp at hm)) h9, h10⟩

theorem demo_plain : Demo.env.PlainNames := by
  intro c
  match c with
  | 0 => exact ⟨by simp only [Env.members, Demo.env, point, PlainName]; decide +kernel, by decide +kernel⟩
  | 1 => exact ⟨by simp only [Env.members, Demo.env, item, PlainName]; decide +kernel, by decide +kernel⟩
  | 2 => exact ⟨by simp only [Env.members, Demo.env, both, PlainName]; decide +kernel, by decide +kernel⟩
  | 3 => exact ⟨by simp only [Env.members, Demo.env, bag, PlainName]; decide +kernel, by decide +kernel⟩
  | 5 => exact ⟨by simp only [Env.members, Demo.env, sample, PlainName]; decide +kernel, by decide +kernel⟩
  | 4 => exact ⟨by simp only [Env.members, Demo.env, tree, PlainName]; decide +kernel, by decide +kernel⟩
  | n + 6 => exact ⟨by simp only [Env.members, Demo.env, tree, PlainName]; decide +kernel, by simp only [Env.members, Demo.env, tree]; decide +kernel⟩

example : ∃ j tr, serializeToDocument Demo.env (.vec (.cls 2)) crowd = some (some j) ∧ Shows Demo.env crowd (.vec (.cls 2)) [] j tr ∧
      Good [] tr ∧ ∀ a p, Occ.ref a p ∈ tr → ∃ pos toks, Occ.full a pos ∈ tr ∧ pointerTokens Demo.env p = some toks ∧
        pointerGet j toks = some pos.reverse :=
  C47_paths_resolve_partial Demo.env fair heap _ _ ty_crowd rfl demo_plain
    (by simp [crowd, PathSafe, PathSafeAll, item7, item8])

/-- **C47, negation.** A map key with a slash: the reference text `/a/b` is evaluated as two tokens and
addresses nothing. -/
theorem C47_slash_key : ∃ v j, HasTy Demo.env Demo.heap v (.map true (.sptr (.cls 1))) ∧
    serializeToDocument Demo.env (.map true (.sptr (.cls 1))) v =
      some (some (.obj [(lit "a/b", j), (lit "c", .obj [(lit "$ref", .str (lit "/a/b"))])])) ∧
    (pointerTokens Demo.env (lit "/a/b")).bind
      (pointerGet (.obj [(lit "a/b", j), (lit "c", .obj [(lit "$ref", .str (lit "/a/b"))])])) = none := by
  refine ⟨.map [(lit "a/b", .sptr 100 item7), (lit "c", .sptr 100 item7)], _, ?_, rfl, rfl⟩
  have h := ty_item7
  simp only [HasTy, ValsTy, and_true]
  exact ⟨⟨⟨rfl, h⟩, ⟨rfl, h⟩⟩, by unfold Ascending; decide +kernel⟩

/-- **C47, negation.** An empty map key is written as the index `0`; with a key `0` in the same map the
reference addresses a different object. -/
theorem C47_empty_key : ∃ v j0 j1, HasTy Demo.env Demo.heap v (.map true (.sptr (.cls 1))) ∧
    serializeToDocument Demo.env (.map true (.sptr (.cls 1))) v =
      some (some (.obj [([], j0), (lit "0", j1), (lit "c", .obj [(lit "$ref", .str (lit "/0"))])])) ∧
    (pointerTokens Demo.env (lit "/0")).bind
      (pointerGet (.obj [([], j0), (lit "0", j1), (lit "c", .obj [(lit "$ref", .str (lit "/0"))])])) = some [1] := by
  refine ⟨.map [([], .sptr 100 item7), (lit "0", .sptr 200 item8), (lit "c", .sptr 100 item7)], _, _, ?_, rfl, rfl⟩
  have h := ty_item7
  have h' := ty_item8
  simp only [HasTy, ValsTy, and_true]
  exact ⟨⟨⟨rfl, h⟩, ⟨rfl, h'⟩, ⟨rfl, h⟩⟩, by unfold Ascending; decide +kernel⟩

/-- **C47/C48, negation.** A shared object first met inside a set: the reference addresses the set, not the
element. -/
theorem C47_inside_set : ∃ v j0 j1, HasTy Demo.env Demo.heap v (.cls 3) ∧
    serializeToDocument Demo.env (.cls 3) v =
      some (some (.obj [(lit "items", .arr [j0, j1]), (lit "best", .obj [(lit "$ref", .str (lit "/items"))])])) ∧
    (pointerTokens Demo.env (lit "/items")).bind
      (pointerGet (.obj [(lit "items", .arr [j0, j1]), (lit "best", .obj [(lit "$ref", .str (lit "/items"))])])) = some [0] :=
  ⟨bagVal, _, _, ty_bag, rfl, rfl⟩

end Verif.Props
