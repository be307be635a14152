import Verif.Rename
import Verif.Props.RoundTrip
import Verif.Props.Text
import Verif.Props.Rename

/-!
# C86: different values are written differently

`SameGraph` says that two values are the same object graph: they differ at most in the addresses of the shared objects.
-/

namespace Verif.Props
open Verif.Core Verif.Numeric Verif.Demo Verif.Text

/-- The same values, and pointers to the same object in the one are pointers to the same object in the other. -/
def SameGraph (v w : Val) : Prop := ∃ f : Nat → Nat, (∀ a ∈ addrs v, ∀ b ∈ addrs v, f a = f b → a = b) ∧ w = rename f v

theorem SameGraph.of_renamed {v w : Val} {f g : Nat → Nat} (hf : ∀ a ∈ addrs v, ∀ b ∈ addrs v, f a = f b → a = b)
    (hg : ∀ a ∈ addrs w, ∀ b ∈ addrs w, g a = g b → a = b) (h : rename f v = rename g w) : SameGraph v w := by
  classical
  -- the inverse of `g`
  let k : Nat → Nat := fun x => if hx : ∃ b ∈ addrs w, g b = x then hx.choose else x
  have hk : ∀ b ∈ addrs w, k (g b) = b := by
    intro b hb
    have hx : ∃ b' ∈ addrs w, g b' = g b := ⟨b, hb, rfl⟩
    simp only [k, dif_pos hx]
    exact hg _ hx.choose_spec.1 b hb hx.choose_spec.2
  have hmap : (addrs v).map f = (addrs w).map g := by rw [← addrs_rename, ← addrs_rename, h]
  refine ⟨k ∘ f, fun a ha b hb hab => hf a ha b hb ?_, ?_⟩
  · have ha' : f a ∈ (addrs w).map g := hmap ▸ List.mem_map_of_mem ha
    have hb' : f b ∈ (addrs w).map g := hmap ▸ List.mem_map_of_mem hb
    obtain ⟨a', ha1, ha2⟩ := List.mem_map.1 ha'
    obtain ⟨b', hb1, hb2⟩ := List.mem_map.1 hb'
    simp only [Function.comp, ← ha2, ← hb2, hk a' ha1, hk b' hb1] at hab
    rw [← ha2, ← hb2, hab]
  · rw [← rename_rename, h, rename_rename, rename_congr (k ∘ g) id w hk, rename_id]

/-- **C86 (partial).** Two values of a type have the same document exactly if they are the same object graph.

Missing: values that do not survive the round trip (`Readable`: times with fractions of a second, alternatives of a variant with the same shape, shared
objects in sets, dictionaries, keys with NUL), infinities and NaNs, names with `/` and `~`. For some of them the statement is false (`C86_times`, `C86_alternatives`,
`C86_dropped`, `C86_paths`). -/
theorem C86_document_partial (env : Env) (hfair : env.Fair) (hclk : 0 < env.clk) (hdist : env.DistinctNames) (t : Ty) (H H' : Heap) (v w : Val)
    (hv : HasTy env H v t) (hw : HasTy env H' w t) (fv : finite v = true) (fw : finite w = true) (rv : Readable env v t) (rw' : Readable env w t)
    (sv : addrs v ≠ [] → env.PlainNames ∧ PathSafe v) (sw : addrs w ≠ [] → env.PlainNames ∧ PathSafe w) :
    serializeToDocument env t v = serializeToDocument env t w ↔ SameGraph v w := by
  constructor
  · intro h
    obtain ⟨doc, h1, h2⟩ := C26_dom_roundtrip_partial env hfair hclk hdist H v t hv fv rv sv
    obtain ⟨doc', h3, h4⟩ := C26_dom_roundtrip_partial env hfair hclk hdist H' w t hw fw rw' sw
    rw [h1, h3] at h
    cases h
    obtain ⟨f, hf, h5, -⟩ := h2 0
    obtain ⟨g, hg, h6, -⟩ := h4 0
    rw [h5] at h6
    exact .of_renamed hf hg (by injection h6)
  · rintro ⟨f, hf, rfl⟩
    exact (C83_document_partial env t v f hf).symm

/-- **C86 (partial), for the text**, if `Writer::Double` writes the numbers so that they are read as the same numbers.

Missing: as for `C86_document_partial`. -/
theorem C86_text_partial (C : NumConv) (env : Env) (hfair : env.Fair) (hclk : 0 < env.clk) (hdist : env.DistinctNames) (t : Ty) (H H' : Heap) (v w : Val)
    (hv : HasTy env H v t) (hw : HasTy env H' w t) (fv : finite v = true) (fw : finite w = true) (rv : Readable env v t) (rw' : Readable env w t)
    (sv : addrs v ≠ [] → env.PlainNames ∧ PathSafe v) (sw : addrs w ≠ [] → env.PlainNames ∧ PathSafe w)
    (cv : ∀ doc, serializeToDocument env t v = some (some doc) → ∀ f ∈ doubles doc, C.Faithful f)
    (cw : ∀ doc, serializeToDocument env t w = some (some doc) → ∀ f ∈ doubles doc, C.Faithful f) (before before' : Str) :
    writeText C env t v before = writeText C env t w before' ↔ SameGraph v w := by
  rw [← C86_document_partial env hfair hclk hdist t H H' v w hv hw fv fw rv rw' sv sw]
  obtain ⟨doc, h1, -⟩ := C26_dom_roundtrip_partial env hfair hclk hdist H v t hv fv rv sv
  obtain ⟨doc', h3, -⟩ := C26_dom_roundtrip_partial env hfair hclk hdist H' w t hw fw rw' sw
  obtain ⟨h5, h6⟩ := written_denotes C env hfair H v t hv fv doc h1 (cv doc h1)
  obtain ⟨h7, h8⟩ := written_denotes C env hfair H' w t hw fw doc' h3 (cw doc' h3)
  rw [h5, h7, h1, h3]
  constructor
  · intro h
    simp only [Option.some.injEq, Prod.mk.injEq, true_and] at h
    rw [h] at h6
    rw [h6.unique h8]
  · intro h
    simp only [Option.some.injEq] at h
    rw [h]

/-- `crowd`, where the last pointer is to a third object, which is equal to the first. -/
def looseCrowd : Val := .seq [.obj [.sptr 100 item7, .sptr 200 item8], .obj [.sptr 200 item8, .sptr 300 item7]]

theorem loose_readable : Readable Demo.env looseCrowd (.vec (.cls 2)) := by
  have h7 := item7_readable
  have h8 := item8_readable
  have k7 := item_noref item7 (.inl rfl)
  have k8 := item_noref item8 (.inr rfl)
  simp only [looseCrowd, Readable, ReadableAll, ReadableMembers, Env.members, Demo.env, both, and_true]
  exact ⟨⟨⟨rfl, k7, h7⟩, ⟨rfl, k8, h8⟩⟩, ⟨⟨rfl, k8, h8⟩, ⟨rfl, k7, h7⟩⟩⟩

example : serializeToDocument Demo.env (.vec (.cls 2)) crowd ≠ serializeToDocument Demo.env (.vec (.cls 2)) looseCrowd := by
  have hty : HasTy Demo.env (fun a => if a = 200 then some (.cls 1, item8) else some (.cls 1, item7)) looseCrowd (.vec (.cls 2)) := by
    have h : HasTy Demo.env (fun a => if a = 200 then some (.cls 1, item8) else some (.cls 1, item7)) item7 (.cls 1) := by
      simp only [item7, HasTy, Env.members, Demo.env, item, MembersTy, PrimTy, and_true, true_and]
      exact ⟨by decide, by decide⟩
    have h' : HasTy Demo.env (fun a => if a = 200 then some (.cls 1, item8) else some (.cls 1, item7)) item8 (.cls 1) := by
      simp only [item8, HasTy, Env.members, Demo.env, item, MembersTy, PrimTy, and_true, true_and]
      exact ⟨by decide, by decide⟩
    simp only [looseCrowd, HasTy, AllTy, Env.members, Demo.env, both, MembersTy, and_true]
    exact ⟨⟨⟨rfl, h⟩, ⟨rfl, h'⟩⟩, ⟨⟨rfl, h'⟩, ⟨rfl, h⟩⟩⟩
  rw [ne_eq, C86_document_partial Demo.env fair (by decide) demo_distinct (.vec (.cls 2)) heap _ crowd looseCrowd ty_crowd hty (by decide +kernel) (by decide +kernel)
    crowd_readable loose_readable (fun _ => ⟨demo_plain, crowd_safe⟩) (fun _ => ⟨demo_plain, by simp [looseCrowd, PathSafe, PathSafeAll, item7, item8]⟩)]
  rintro ⟨f, -, h⟩
  simp [crowd, looseCrowd, rename, renameAll, item7, item8] at h
  omega

example (C : NumConv) (before before' : Str) : writeText C Demo.env (.cls 1) item7 before ≠ writeText C Demo.env (.cls 1) item8 before' := by
  have hd : ∀ doc, serializeToDocument Demo.env (.cls 1) item7 = some (some doc) → ∀ f ∈ doubles doc, C.Faithful f := by
    intro doc h
    cases h
    intro f hf
    cases hf
  have hd' : ∀ doc, serializeToDocument Demo.env (.cls 1) item8 = some (some doc) → ∀ f ∈ doubles doc, C.Faithful f := by
    intro doc h
    cases h
    intro f hf
    cases hf
  rw [ne_eq, C86_text_partial C Demo.env fair (by decide) demo_distinct (.cls 1) heap heap item7 item8 ty_item7 ty_item8 (by decide +kernel) (by decide +kernel)
    item7_readable item8_readable (fun h => absurd rfl h) (fun h => absurd rfl h) hd hd']
  rintro ⟨f, -, h⟩
  simp [item7, item8, rename, renameAll] at h

/-- **C86 is false for times**: two times in the same second have the same document. -/
theorem C86_times : ¬ SameGraph (.prim (.time 5)) (.prim (.time 7)) ∧
    serializeToDocument Demo.env (.prim .time) (.prim (.time 5)) = serializeToDocument Demo.env (.prim .time) (.prim (.time 7)) := by
  refine ⟨?_, rfl⟩
  rintro ⟨f, -, h⟩
  cases h

/-- **C86 is false for variants** in which two alternatives have the same documents: which alternative it was is lost. -/
theorem C86_alternatives : ¬ SameGraph (.alt 0 (.prim (.int 5))) (.alt 1 (.prim (.int 5))) ∧
    serializeToDocument Demo.env (.variant [tInt, .prim (.int ⟨.w64, true⟩)]) (.alt 0 (.prim (.int 5))) =
      serializeToDocument Demo.env (.variant [tInt, .prim (.int ⟨.w64, true⟩)]) (.alt 1 (.prim (.int 5))) := by
  refine ⟨?_, rfl⟩
  rintro ⟨f, -, h⟩
  cases h

/-- **C86 is false for infinities and NaNs** in members of classes, which are left out. -/
theorem C86_dropped : ¬ SameGraph badPoint (.obj [.prim (.flt (.fin false 1 0)), .prim (.flt (.inf false))]) ∧
    serializeToDocument Demo.env (.cls 0) badPoint = serializeToDocument Demo.env (.cls 0) (.obj [.prim (.flt (.fin false 1 0)), .prim (.flt (.inf false))]) := by
  refine ⟨?_, rfl⟩
  rintro ⟨f, -, h⟩
  simp [badPoint, rename, renameAll] at h

/-- `{"x": {"y/z": first}, "x/y": {"z": second}, "z": {"": third}}` -/
def pathMaps (third : Val) : Val :=
  .map [(lit "x", .map [(lit "y/z", .sptr 0 (.prim (.int 1)))]), (lit "x/y", .map [(lit "z", .sptr 1 (.prim (.int 1)))]), (lit "z", .map [(lit "k", third)])]

/-- **C86 is false for keys with `/`**: in `{"x": {"y/z": 1}, "x/y": {"z": 1}, "z": {"k": {"$ref": "/x/y/z"}}}` the reference stands for any of the two objects. -/
theorem C86_paths : ¬ SameGraph (pathMaps (.sptr 0 (.prim (.int 1)))) (pathMaps (.sptr 1 (.prim (.int 1)))) ∧
    serializeToDocument Demo.env (.map true (.map true (.sptr tInt))) (pathMaps (.sptr 0 (.prim (.int 1)))) =
      serializeToDocument Demo.env (.map true (.map true (.sptr tInt))) (pathMaps (.sptr 1 (.prim (.int 1)))) := by
  refine ⟨?_, rfl⟩
  rintro ⟨f, -, h⟩
  simp only [pathMaps, rename, renameVals, Val.map.injEq, List.cons.injEq, Prod.mk.injEq, Val.sptr.injEq, true_and, and_true] at h
  omega

end Verif.Props
