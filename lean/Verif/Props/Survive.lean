import Verif.Survive
import Verif.Deserialize
import Verif.Props.Write

/-!
# C30, C47: what the DOM serializer leaves out
-/

namespace Verif.Props
open Verif.Core Verif.Numeric Verif.Demo

theorem serialized (env : Env) (hfair : env.Fair) (H : Heap) (t : Ty) (v : Val) (ht : HasTy env H v t) :
    ∃ r, serializeToDocument env t v = some r ∧ Returned r (survives v) (Remains env (fun a => 2 ≤ (addrs v).count a) v t) := by
  obtain ⟨σ', r, h1, -, h2⟩ := ser_total env hfair H (fun a => 2 ≤ (addrs v).count a) v t [] [] ht (by intro a ha; simp [STab.keys] at ha)
    (fun a ha => by simpa [STab.holds, STab.keys] using ha)
  exact ⟨r, by rw [serializeToDocument, h1], h2⟩

/-- **C30.** `serialize_to_document` of a well-typed value fails if and only if the value has an infinity or NaN outside of members
of classes. -/
theorem C30_fails_iff (env : Env) (hfair : env.Fair) (H : Heap) (t : Ty) (v : Val) (ht : HasTy env H v t) :
    (serializeToDocument env t v = some none ↔ survives v = false) ∧
    ((∃ doc, serializeToDocument env t v = some (some doc)) ↔ survives v = true) := by
  obtain ⟨r, h1, h2⟩ := serialized env hfair H t v ht
  rw [h1]
  cases r with
  | none => simp [show survives v = false from h2]
  | some doc => simp [h2.1]

/-- **C30.** If it succeeds then the document shows the value with exactly those members left out that do not survive; only objects
that are reached more than once are shown as references. -/
theorem C30_what_remains (env : Env) (hfair : env.Fair) (H : Heap) (t : Ty) (v : Val) (ht : HasTy env H v t) (doc : Json)
    (h : serializeToDocument env t v = some (some doc)) : Remains env (fun a => 2 ≤ (addrs v).count a) v t doc := by
  obtain ⟨r, h1, h2⟩ := serialized env hfair H t v ht
  rw [h1] at h
  cases h
  exact h2.2

/-- **C30.** The document is complete if and only if all numbers of the value are finite. -/
theorem C30_complete_iff (env : Env) (hfair : env.Fair) (H : Heap) (t : Ty) (v : Val) (ht : HasTy env H v t) :
    (∃ doc tr, serializeToDocument env t v = some (some doc) ∧ Shows env v t [] doc tr ∧ Good [] tr) ↔ finite v = true := by
  constructor
  · rintro ⟨doc, tr, -, h1, h2⟩
    exact (shows_finite env H v t [] doc tr [] ht h1 h2 (by intro a ha; cases ha)).1
  · intro hf
    obtain ⟨n, j, tr, h1, h2, h3⟩ := serOk env hfair H v t [] [] [] ht hf
    exact ⟨j, tr, by simp [serializeToDocument, h1], h2, h3.good⟩

/-- `{"p": Point{3.0, NaN}}` has a document although not all of its numbers are finite; `[NaN]` has none. -/
example : survives (.map [(lit "p", badPoint)]) = true ∧ finite (.map [(lit "p", badPoint)]) = false ∧
    serializeToDocument Demo.env (.map true (.cls 0)) (.map [(lit "p", badPoint)]) = some (some (.obj [(lit "p", .obj [(lit "x", .num (.dbl (.fin false 1 0)))])])) ∧
    serializeToDocument Demo.env (.vec tDbl) (.seq [.prim (.flt .nan)]) = some none :=
  ⟨rfl, rfl, rfl, rfl⟩

example : Remains Demo.env (fun a => 2 ≤ (addrs badPoint).count a) badPoint (.cls 0) (.obj [(lit "x", .num (.dbl (.fin false 1 0)))]) :=
  C30_what_remains Demo.env fair heap _ _ ty_badPoint _ rfl

/-! ## C31 -/

/-- Names of the members of an object that are written: those that are engaged and survive, in declaration order. -/
def writtenNames (ms : List Member) (vs : List Val) : List Str :=
  ((ms.zip vs).filter fun p => !(decide (p.1.kind = .optional) && isAbsent p.2) && survives p.2).map (·.1.name)

theorem remainsMembers_names {env : Env} {S : Nat → Prop} {vs : List Val} : ∀ {ms : List Member} {js : List (Str × Json)},
    RemainsMembers env S vs ms js → js.map (·.1) = writtenNames ms vs := by
  induction vs with
  | nil => intro ms js h; cases h; rfl
  | cons v vs ih =>
    intro ms js h
    cases h with
    | @skip _ _ m _ _ hk hr =>
      obtain ⟨h1, rfl⟩ := fieldOf_skip hk
      rw [ih hr]
      simp [writtenNames, h1, isAbsent]
    | @drop _ w _ m _ _ hk hs hr =>
      rw [ih hr]
      rcases fieldOf_here hk with ⟨-, rfl⟩ | ⟨-, rfl⟩ <;> simp [writtenNames, survives, hs]
    | @keep _ w _ m _ _ _ hk hs hj hr =>
      rw [List.map_cons, ih hr]
      rcases fieldOf_here hk with ⟨-, rfl⟩ | ⟨h1, rfl⟩
      · simp [writtenNames, survives, hs, isAbsent]
      · simp [writtenNames, hs, h1]

/-- **C31.** Wherever an object of a class is serialized, with any numbers in it, the result lists, in declaration order, exactly the
engaged members that survive. The table of references has objects that survive, as the serializer keeps it (`ser_total`). -/
theorem C31_members_exact (env : Env) (hfair : env.Fair) (H : Heap) (c : Nat) (vs : List Val) (ht : HasTy env H (.obj vs) (.cls c)) (segs : List Seg)
    (σ : STab) (hσ : AllSurvive H σ) :
    ∃ σ' js, ser env (.obj vs) (.cls c) segs σ = .done σ' (some (.obj js)) ∧ js.map (·.1) = writtenNames (env.members c) vs := by
  obtain ⟨σ', r, h1, -, h2⟩ := ser_total env hfair H (fun _ => True) (.obj vs) (.cls c) segs σ ht hσ (fun _ _ => trivial)
  cases r with
  | none => cases h2
  | some j =>
    cases h2.2 with
    | cls h3 => exact ⟨σ', _, h1, remainsMembers_names h3⟩

example : writtenNames (Demo.env.members 0) [.prim (.flt (.fin false 1 0)), .prim (.flt .nan)] = [lit "x"] := by decide +kernel
example : ∃ σ' js, ser Demo.env badPoint (.cls 0) [.index 3] [] = .done σ' (some (.obj js)) ∧ js.map (·.1) = writtenNames (Demo.env.members 0) [.prim (.flt (.fin false 1 0)), .prim (.flt .nan)] :=
  C31_members_exact Demo.env fair heap 0 _ ty_badPoint [.index 3] [] (by intro a ha; cases ha)

/-! ## References into members that are left out -/

/-- `struct Rated { std::optional<std::pair<std::shared_ptr<Item>, double>> rating; std::shared_ptr<Item> best; }` -/
def ratedEnv : Env := { Demo.env with
  classes := fun n => match n with
    | 1 => item
    | _ => ⟨lit "Rated", [⟨lit "rating", .optional, .tuple [.sptr (.cls 1), tDbl]⟩, ⟨lit "best", .required, .sptr (.cls 1)⟩]⟩ }

/-- The best item is the item that is rated, with NaN. -/
def rated : Val := .obj [.present (.tup [.sptr 100 item7, .prim (.flt .nan)]), .sptr 100 item7]

theorem ty_rated : HasTy ratedEnv heap rated (.cls 0) := by
  have h : HasTy ratedEnv heap item7 (.cls 1) := by
    simp only [item7, HasTy, Env.members, ratedEnv, Demo.env, item, MembersTy, PrimTy, and_true, true_and]
    exact ⟨by decide, by decide⟩
  have h1 : PrimTy ratedEnv (.flt .nan) (.flt .double) := by simp only [PrimTy]; decide
  simp only [rated, HasTy, HasTys, Env.members, ratedEnv, MembersTy, and_true]
  exact ⟨⟨⟨rfl, h⟩, h1⟩, ⟨rfl, h⟩⟩

/-- What is left of it. -/
def ratedDoc : Json := .obj [(lit "best", .obj [(lit "$ref", .str (lit "/rating/0"))])]

theorem rated_written : serializeToDocument ratedEnv (.cls 0) rated = some (some ratedDoc) := by with_unfolding_all rfl

theorem rating_tokens : pointerTokens ratedEnv (lit "/rating/0") = some [lit "rating", lit "0"] := by decide +kernel

theorem rating_get : pointerGet ratedDoc [lit "rating", lit "0"] = none := by decide +kernel

/-- **C47, negation.** The object was entered into the table of references while a member was serialized that failed later and is
left out of the document. The other pointer to it is written as a reference to the place where it would have been:
`serialize_to_document` reports success, and the document contains neither the object nor anything the reference resolves to; it
cannot be read, although the member left out is optional. -/
theorem C47_left_out : HasTy ratedEnv heap rated (.cls 0) ∧ serializeToDocument ratedEnv (.cls 0) rated = some (some ratedDoc) ∧
    (pointerTokens ratedEnv (lit "/rating/0")).bind (pointerGet ratedDoc) = none ∧
    ∀ target next, ∃ w, deserializeBool ratedEnv (.cls 0) ratedDoc target next = some (false, w) := by
  refine ⟨ty_rated, rated_written, ?_, fun target next => ?_⟩
  · rw [rating_tokens]
    exact rating_get
  · have h1 : readRef ratedEnv ratedDoc (.cls 1) (.str (lit "/rating/0")) (target.members.tail.headD (ratedEnv.fresh (.sptr (.cls 1)))) ⟨[], next⟩ =
        .done false (target.members.tail.headD (ratedEnv.fresh (.sptr (.cls 1)))) ⟨[], next⟩ := by
      simp only [readRef, rating_tokens, rating_get]
    have h2 : refMember (.obj [(lit "$ref", .str (lit "/rating/0"))]) = some (.str (lit "/rating/0")) := by with_unfolding_all rfl
    have h3 : ∀ f : DesFn, findMember (lit "rating") [(lit "best", f)] = none := fun f => by with_unfolding_all rfl
    have h4 : ∀ f : DesFn, findMember (lit "best") [(lit "best", f)] = some (0, f) := fun f => by with_unfolding_all rfl
    have h5 : ratedEnv.members 0 = [⟨lit "rating", .optional, .tuple [.sptr (.cls 1), tDbl]⟩, ⟨lit "best", .required, .sptr (.cls 1)⟩] := rfl
    refine ⟨.obj [.absent, target.members.tail.headD (ratedEnv.fresh (.sptr (.cls 1)))], ?_⟩
    rw [deserializeBool, deser_cls]
    simp only [ratedDoc, List.map_cons, List.map_nil, h5, runMembers, h3, h4, deser_sptr, h2]
    rw [show (if Kind.required = Kind.optional then ratedEnv.fresh (.sptr (.cls 1)) else target.members.tail.headD (ratedEnv.fresh (.sptr (.cls 1)))) =
      target.members.tail.headD (ratedEnv.fresh (.sptr (.cls 1))) from rfl]
    rw [ratedDoc] at h1
    rw [h1]
    rfl

end Verif.Props
