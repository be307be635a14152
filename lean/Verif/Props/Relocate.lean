import Verif.Relocate
import Verif.Props.RefKey
import Verif.Props.Write

/-!
# C115: a document is put together from the documents of its parts

A container or class without objects that several of its parts refer to is written as the documents of the parts, with
the references in each part beginning with the place of the part.
-/

namespace Verif.Props
open Verif.Core Verif.Numeric Verif.Demo

/-- `j'` is `j` with each reference to a place in the part replaced by the reference to the same place when the part begins at `place`. -/
def MovedTo (place : List Seg) (j j' : Json) : Prop := ∃ T : Tmpl, j = T.fill [] ∧ j' = T.fill place

/-- No two of the values refer to the same object. -/
def Apart (vs : List Val) : Prop := vs.Pairwise fun v w => ∀ a ∈ addrs v, a ∉ addrs w

/-- An unordered map is iterated in the same order wherever it is. -/
def SteadyOrder (env : Env) : Prop := ∀ segs ks, env.order segs ks = env.order [] ks

/-- The document of a part on its own, and at a place. -/
structure Part (env : Env) (place : List Seg) (v : Val) (t : Ty) (j' : Json) : Prop where
  here : ∃ j, serializeToDocument env t v = some (some j) ∧ MovedTo place j j' ∧ (addrs v = [] → j' = j)

/-- The documents of elements, the first of which has index `k`. -/
inductive Parts (env : Env) : Nat → List Val → List Ty → List Json → Prop
  | nil (k : Nat) : Parts env k [] [] []
  | cons {k : Nat} {v : Val} {t : Ty} {j : Json} {vs : List Val} {ts : List Ty} {js : List Json} (h : Part env [.index k] v t j) (hs : Parts env (k + 1) vs ts js) :
      Parts env k (v :: vs) (t :: ts) (j :: js)

/-- The documents of entries of a map. -/
inductive EntryParts (env : Env) (t : Ty) : List (Str × Val) → List (Str × Json) → Prop
  | nil : EntryParts env t [] []
  | cons {k : Str} {v : Val} {j : Json} {kvs : List (Str × Val)} {ms : List (Str × Json)} (h : Part env [.name k] v t j) (hs : EntryParts env t kvs ms) :
      EntryParts env t ((k, v) :: kvs) ((k, j) :: ms)

/-- What a member variable holds. -/
def Held (m : Member) (v w : Val) : Prop := (m.kind = .optional ∧ v = .present w) ∨ (m.kind ≠ .optional ∧ v = w)

/-- The documents of members: without those that are not engaged, and without those that cannot be serialized. -/
inductive MemberParts (env : Env) : List Val → List Member → List (Str × Json) → Prop
  | nil : MemberParts env [] [] []
  | skip {m : Member} {vs : List Val} {ms : List Member} {js : List (Str × Json)} (h : m.kind = .optional) (hs : MemberParts env vs ms js) : MemberParts env (.absent :: vs) (m :: ms) js
  | fail {m : Member} {v w : Val} {vs : List Val} {ms : List Member} {js : List (Str × Json)} (hh : Held m v w) (h : serializeToDocument env m.ty w = some none)
      (hs : MemberParts env vs ms js) : MemberParts env (v :: vs) (m :: ms) js
  | cons {m : Member} {v w : Val} {j : Json} {vs : List Val} {ms : List Member} {js : List (Str × Json)} (hh : Held m v w) (h : Part env [.name m.name] w m.ty j)
      (hs : MemberParts env vs ms js) : MemberParts env (v :: vs) (m :: ms) ((m.name, j) :: js)

/-! ## One part -/

theorem part_two (env : Env) (hord : SteadyOrder env) (v : Val) (t : Ty) (place : List Seg) (σ : STab) (hσ : ∀ a ∈ addrs v, σ.get a = none) :
    TwoJ (· ∈ addrs v) place (addrs v).length (ser env v t [] []) (ser env v t place σ) := by
  have := ser_two env (· ∈ addrs v) place (fun segs ks => by rw [hord, hord segs]) v t [] [] σ (fun _ h => h) (fun a ha => by rw [hσ a ha]; rfl)
  simpa using this

/-- **C115, one part.** Whatever is written before a part, if it does not refer to the objects of the part: the part is undefined, fails, or is written as it is on its own, moved to
its place; and only the entries for its own objects in the table change. -/
theorem C115_part (env : Env) (hord : SteadyOrder env) (v : Val) (t : Ty) (place : List Seg) (σ : STab) (hσ : ∀ a ∈ addrs v, σ.get a = none) :
    (serializeToDocument env t v = none → ser env v t place σ = .ub) ∧
    (serializeToDocument env t v = some none → ∃ σ', ser env v t place σ = .done σ' none ∧ ∀ a, a ∉ addrs v → σ'.get a = σ.get a) ∧
    (∀ j, serializeToDocument env t v = some (some j) → ∃ σ' j', ser env v t place σ = .done σ' (some j') ∧ Part env place v t j' ∧ ∀ a, a ∉ addrs v → σ'.get a = σ.get a) := by
  have h := part_two env hord v t place σ hσ
  have hk := ser_keeps env v t place σ
  unfold serializeToDocument
  generalize hr : ser env v t [] [] = r at h
  generalize ser env v t place σ = r' at h hk
  cases h with
  | ub => exact ⟨fun _ => rfl, nofun, nofun⟩
  | fail τ τ' h => exact ⟨nofun, fun _ => ⟨_, rfl, hk⟩, nofun⟩
  | ok τ τ' h T hT =>
    refine ⟨nofun, nofun, fun j hj => ⟨_, _, rfl, ⟨_, by rw [serializeToDocument, hr], ⟨T, rfl, rfl⟩, fun e => ?_⟩, hk⟩⟩
    exact Tmpl.fill_closed _ _ _ (hT (by simp [e]))

example : ∃ σ' j', ser Demo.env (.obj [.sptr 100 item7, .sptr 100 item7]) (.cls 2) [.named (lit "b"), .index 4] [(7, [.index 0])] = .done σ' (some j') ∧
    Part Demo.env [.named (lit "b"), .index 4] (.obj [.sptr 100 item7, .sptr 100 item7]) (.cls 2) j' ∧ ∀ a, a ∉ [100, 100] → σ'.get a = STab.get [(7, [.index 0])] a :=
  (C115_part Demo.env (fun _ _ => rfl) (.obj [.sptr 100 item7, .sptr 100 item7]) (.cls 2) _ _ (by intro a ha; simp [addrs, addrsAll, item7] at ha; subst ha; rfl)).2.2 _
    (by with_unfolding_all rfl)

/-! ## Elements -/

theorem items_parts (env : Env) (hord : SteadyOrder env) : ∀ (vs : List Val) (ts : List Ty) (k : Nat) (σ : STab), vs.length = ts.length → Apart vs → (∀ a ∈ addrsAll vs, σ.get a = none) →
    (∀ p ∈ vs.zip ts, ∃ j, serializeToDocument env p.2 p.1 = some (some j)) → ∃ σ' js, serItems env vs ts k [] σ = .done σ' (some js) ∧ Parts env k vs ts js
  | [], [], k, σ, _, _, _, _ => ⟨σ, [], by simp [serItems], .nil k⟩
  | v :: vs, t :: ts, k, σ, hl, hp, hσ, hd => by
      obtain ⟨hp1, hp2⟩ := List.pairwise_cons.1 hp
      obtain ⟨j, hj⟩ := hd (v, t) (by simp)
      obtain ⟨τ, j', h1, h2, h3⟩ := (C115_part env hord v t [.index k] σ (fun a ha => hσ a (by simp [addrsAll, ha]))).2.2 j hj
      obtain ⟨σ', js, h4, h5⟩ := items_parts env hord vs ts (k + 1) τ (by simpa using hl) hp2 (fun a ha => by
        obtain ⟨w, hw, ha'⟩ := (mem_addrsAll _ _).1 ha
        rw [h3 a (fun hv => hp1 w hw a hv ha')]
        exact hσ a (by simp [addrsAll, ha])) (fun p hp => hd p (by simp [hp]))
      refine ⟨σ', j' :: js, ?_, .cons h2 h5⟩
      simp only [serItems, h1, h4, SRes.map, Option.map_some]

theorem items_fail (env : Env) (hord : SteadyOrder env) : ∀ (vs : List Val) (ts : List Ty) (k : Nat) (σ : STab), vs.length = ts.length → Apart vs → (∀ a ∈ addrsAll vs, σ.get a = none) →
    (∀ p ∈ vs.zip ts, serializeToDocument env p.2 p.1 ≠ none) → (∃ p ∈ vs.zip ts, serializeToDocument env p.2 p.1 = some none) → ∃ σ', serItems env vs ts k [] σ = .done σ' none
  | [], _, _, _, _, _, _, _, hf => by simp at hf
  | _ :: _, [], _, _, hl, _, _, _, _ => by simp at hl
  | v :: vs, t :: ts, k, σ, hl, hp, hσ, hd, hf => by
      obtain ⟨hp1, hp2⟩ := List.pairwise_cons.1 hp
      have hpart := C115_part env hord v t [.index k] σ (fun a ha => hσ a (by simp [addrsAll, ha]))
      cases hj : serializeToDocument env t v with
      | none => exact (hd (v, t) (by simp) hj).elim
      | some r =>
        cases r with
        | none =>
          obtain ⟨τ, h1, -⟩ := hpart.2.1 hj
          exact ⟨τ, by simp only [serItems, h1]⟩
        | some j =>
          obtain ⟨τ, j', h1, h2, h3⟩ := hpart.2.2 j hj
          obtain ⟨σ', h4⟩ := items_fail env hord vs ts (k + 1) τ (by simpa using hl) hp2 (fun a ha => by
            obtain ⟨w, hw, ha'⟩ := (mem_addrsAll _ _).1 ha
            rw [h3 a (fun hv => hp1 w hw a hv ha')]
            exact hσ a (by simp [addrsAll, ha])) (fun p hp => hd p (by simp [hp])) (by
              obtain ⟨p, hp, he⟩ := hf
              simp only [List.zip_cons_cons, List.mem_cons] at hp
              rcases hp with rfl | hp
              · rw [hj] at he; cases he
              · exact ⟨p, hp, he⟩)
          exact ⟨σ', by simp only [serItems, h1, h4, SRes.map, Option.map_none]⟩

theorem zip_replicate {vs : List Val} {t : Ty} {n : Nat} {p : Val × Ty} (h : p ∈ vs.zip (List.replicate n t)) : p.1 ∈ vs ∧ p.2 = t :=
  ⟨(List.of_mem_zip h).1, List.eq_of_mem_replicate (List.of_mem_zip h).2⟩

/-- **C115 for vectors.** Elements that do not refer to common objects: the array has the documents of the elements, each moved to its place; elements without shared objects are written
exactly as they are on their own. -/
theorem C115_vector (env : Env) (hord : SteadyOrder env) (t : Ty) (vs : List Val) (hp : Apart vs) (hd : ∀ v ∈ vs, ∃ j, serializeToDocument env t v = some (some j)) :
    ∃ js, serializeToDocument env (.vec t) (.seq vs) = some (some (.arr js)) ∧ Parts env 0 vs (List.replicate vs.length t) js := by
  obtain ⟨σ', js, h1, h2⟩ := items_parts env hord vs (List.replicate vs.length t) 0 [] (by simp) hp (fun _ _ => rfl)
    (fun p h => by obtain ⟨h1, h2⟩ := zip_replicate h; rw [h2]; exact hd _ h1)
  exact ⟨js, by simp only [serializeToDocument, ser, h1, SRes.map, Option.map_some], h2⟩

example : ∃ js, serializeToDocument Demo.env (.vec (.cls 2)) (.seq [.obj [.sptr 100 item7, .sptr 100 item7], .obj [.sptr 200 item8, .sptr 200 item8]]) = some (some (.arr js)) ∧
    Parts Demo.env 0 [.obj [.sptr 100 item7, .sptr 100 item7], .obj [.sptr 200 item8, .sptr 200 item8]] [.cls 2, .cls 2] js :=
  C115_vector Demo.env (fun _ _ => rfl) (.cls 2) [.obj [.sptr 100 item7, .sptr 100 item7], .obj [.sptr 200 item8, .sptr 200 item8]]
    (by simp [Apart, addrs, addrsAll, item7, item8])
    (by
      intro v hv
      simp only [List.mem_cons, List.not_mem_nil, or_false] at hv
      rcases hv with rfl | rfl
      · exact ⟨_, by with_unfolding_all rfl⟩
      · exact ⟨_, by with_unfolding_all rfl⟩)

/-- **C115 for vectors that fail.** The vector cannot be serialized iff one of the elements cannot be serialized on its own. -/
theorem C115_vector_fails (env : Env) (hord : SteadyOrder env) (t : Ty) (vs : List Val) (hp : Apart vs) (hd : ∀ v ∈ vs, serializeToDocument env t v ≠ none) :
    serializeToDocument env (.vec t) (.seq vs) = some none ↔ ∃ v ∈ vs, serializeToDocument env t v = some none := by
  by_cases hf : ∃ v ∈ vs, serializeToDocument env t v = some none
  · refine ⟨fun _ => hf, fun _ => ?_⟩
    obtain ⟨v, hv, he⟩ := hf
    obtain ⟨i, hi, hget⟩ := List.getElem_of_mem hv
    obtain ⟨σ', h1⟩ := items_fail env hord vs (List.replicate vs.length t) 0 [] (by simp) hp (fun _ _ => rfl)
      (fun p h => by obtain ⟨h1, h2⟩ := zip_replicate h; rw [h2]; exact hd _ h1)
      ⟨(v, t), List.mem_iff_getElem.2 ⟨i, by simpa using hi, by simp [hget]⟩, he⟩
    simp only [serializeToDocument, ser, h1, SRes.map, Option.map_none]
  · refine ⟨fun h => ?_, fun h => (hf h).elim⟩
    obtain ⟨js, h1, -⟩ := C115_vector env hord t vs hp (fun v hv => by
      cases hj : serializeToDocument env t v with
      | none => exact (hd v hv hj).elim
      | some r =>
        cases r with
        | none => exact (hf ⟨v, hv, hj⟩).elim
        | some j => exact ⟨j, rfl⟩)
    rw [h1] at h
    cases h

example : serializeToDocument Demo.env (.vec (.sptr tDbl)) (.seq [.sptr 1 (.prim (.flt (.fin false 1 0))), .sptr 2 (.prim (.flt .nan))]) = some none :=
  (C115_vector_fails Demo.env (fun _ _ => rfl) (.sptr tDbl) [.sptr 1 (.prim (.flt (.fin false 1 0))), .sptr 2 (.prim (.flt .nan))] (by simp [Apart, addrs])
    (by
      intro v hv
      simp only [List.mem_cons, List.not_mem_nil, or_false] at hv
      rcases hv with rfl | rfl
      · exact fun h => nomatch (show some _ = none from h)
      · exact fun h => nomatch (show some _ = none from h))).2 ⟨.sptr 2 (.prim (.flt .nan)), by simp, rfl⟩

/-- **C115 for tuples and pairs.** -/
theorem C115_tuple (env : Env) (hord : SteadyOrder env) (ts : List Ty) (vs : List Val) (hl : vs.length = ts.length) (hp : Apart vs)
    (hd : ∀ p ∈ vs.zip ts, ∃ j, serializeToDocument env p.2 p.1 = some (some j)) :
    ∃ js, serializeToDocument env (.tuple ts) (.tup vs) = some (some (.arr js)) ∧ Parts env 0 vs ts js := by
  obtain ⟨σ', js, h1, h2⟩ := items_parts env hord vs ts 0 [] hl hp (fun _ _ => rfl) hd
  exact ⟨js, by simp only [serializeToDocument, ser, h1, SRes.map, Option.map_some], h2⟩

example : ∃ js, serializeToDocument Demo.env (.tuple [.vec (.sptr tInt), tInt]) (.tup [.seq [.sptr 1 (.prim (.int 5)), .sptr 1 (.prim (.int 5))], .prim (.int 3)]) = some (some (.arr js)) ∧
    Parts Demo.env 0 [.seq [.sptr 1 (.prim (.int 5)), .sptr 1 (.prim (.int 5))], .prim (.int 3)] [.vec (.sptr tInt), tInt] js :=
  C115_tuple Demo.env (fun _ _ => rfl) _ _ rfl (by simp [Apart, addrs, addrsAll])
    (by
      intro p hp
      simp only [List.zip_cons_cons, List.zip_nil_right, List.mem_cons, List.not_mem_nil, or_false] at hp
      rcases hp with rfl | rfl
      · exact ⟨_, by with_unfolding_all rfl⟩
      · exact ⟨_, by with_unfolding_all rfl⟩)

/-! ## Entries -/

theorem entries_parts (env : Env) (hord : SteadyOrder env) (t : Ty) : ∀ (kvs : List (Str × Val)) (σ : STab), Apart (kvs.map (·.2)) → (∀ a ∈ addrsVals kvs, σ.get a = none) →
    (∀ p ∈ kvs, ∃ j, serializeToDocument env t p.2 = some (some j)) → ∃ σ' ms, serEntries (kvs.map fun p => (p.1, ser env p.2 t)) [] σ = .done σ' (some ms) ∧ EntryParts env t kvs ms
  | [], σ, _, _, _ => ⟨σ, [], by simp [serEntries], .nil⟩
  | (k, v) :: kvs, σ, hp, hσ, hd => by
      obtain ⟨hp1, hp2⟩ := List.pairwise_cons.1 hp
      obtain ⟨j, hj⟩ := hd (k, v) (by simp)
      obtain ⟨τ, j', h1, h2, h3⟩ := (C115_part env hord v t [.name k] σ (fun a ha => hσ a (by simp [addrsVals, ha]))).2.2 j hj
      obtain ⟨σ', js, h4, h5⟩ := entries_parts env hord t kvs τ hp2 (fun a ha => by
        obtain ⟨q, hq, ha'⟩ := (mem_addrsVals _ _).1 ha
        rw [h3 a (fun hv => hp1 q.2 (List.mem_map.2 ⟨q, hq, rfl⟩) a hv ha')]
        exact hσ a (by simp [addrsVals, ha])) (fun p hp => hd p (by simp [hp]))
      refine ⟨σ', (k, j') :: js, ?_, .cons h2 h5⟩
      simp only [List.map_cons, serEntries, h1, h4, SRes.map, Option.map_some]

/-- **C115 for ordered maps.** -/
theorem C115_map (env : Env) (hord : SteadyOrder env) (t : Ty) (kvs : List (Str × Val)) (hp : Apart (kvs.map (·.2)))
    (hd : ∀ p ∈ kvs, ∃ j, serializeToDocument env t p.2 = some (some j)) :
    ∃ ms, serializeToDocument env (.map true t) (.map kvs) = some (some (.obj ms)) ∧ EntryParts env t kvs ms := by
  obtain ⟨σ', ms, h1, h2⟩ := entries_parts env hord t kvs [] hp (fun _ _ => rfl) hd
  refine ⟨ms, ?_, h2⟩
  simp only [serializeToDocument, ser, serVals_eq, iterate, if_true, h1, SRes.map, Option.map_some]

example : ∃ ms, serializeToDocument Demo.env (.map true (.cls 2)) (.map [(lit "a", .obj [.sptr 100 item7, .sptr 100 item7]), (lit "b", .obj [.sptr 200 item8, .sptr 200 item8])]) = some (some (.obj ms)) ∧
    EntryParts Demo.env (.cls 2) [(lit "a", .obj [.sptr 100 item7, .sptr 100 item7]), (lit "b", .obj [.sptr 200 item8, .sptr 200 item8])] ms :=
  C115_map Demo.env (fun _ _ => rfl) _ _ (by simp [Apart, addrs, addrsAll, item7, item8])
    (by
      intro p hp
      simp only [List.mem_cons, List.not_mem_nil, or_false] at hp
      rcases hp with rfl | rfl
      · exact ⟨_, by with_unfolding_all rfl⟩
      · exact ⟨_, by with_unfolding_all rfl⟩)

/-- **C115 for unordered maps.** The entries are those of the map, in the order of the iteration. -/
theorem C115_unordered (env : Env) (hfair : env.Fair) (hord : SteadyOrder env) (t : Ty) (kvs : List (Str × Val)) (hn : (kvs.map (·.1)).Nodup) (hp : Apart (kvs.map (·.2)))
    (hd : ∀ p ∈ kvs, ∃ j, serializeToDocument env t p.2 = some (some j)) :
    ∃ kvs' ms, kvs'.Perm kvs ∧ serializeToDocument env (.map false t) (.map kvs) = some (some (.obj ms)) ∧ EntryParts env t kvs' ms := by
  have hperm := iterate_perm env hfair false [] kvs hn
  have hsymm : ∀ {v w : Val}, (∀ a ∈ addrs v, a ∉ addrs w) → ∀ a ∈ addrs w, a ∉ addrs v := fun h a hw hv => h a hv hw
  obtain ⟨σ', ms, h1, h2⟩ := entries_parts env hord t (iterate env false [] kvs) [] (((hperm.map (fun p : Str × Val => p.2)).pairwise_iff hsymm).2 hp) (fun _ _ => rfl)
    (fun p hp => hd p (hperm.mem_iff.1 hp))
  refine ⟨_, ms, hperm, ?_, h2⟩
  simp only [serializeToDocument, ser, serVals_eq]
  rw [iterate_map (g := fun p => ser env p.2 t)]
  simp only [h1, SRes.map, Option.map_some]

example : ∃ kvs' ms, kvs'.Perm [(lit "a", .obj [.sptr 100 item7, .sptr 100 item7]), (lit "b", .obj [.sptr 200 item8, .sptr 200 item8])] ∧
    serializeToDocument Demo.env (.map false (.cls 2)) (.map [(lit "a", .obj [.sptr 100 item7, .sptr 100 item7]), (lit "b", .obj [.sptr 200 item8, .sptr 200 item8])]) = some (some (.obj ms)) ∧
    EntryParts Demo.env (.cls 2) kvs' ms :=
  C115_unordered Demo.env fair (fun _ _ => rfl) _ _ (by decide) (by simp [Apart, addrs, addrsAll, item7, item8])
    (by
      intro p hp
      simp only [List.mem_cons, List.not_mem_nil, or_false] at hp
      rcases hp with rfl | rfl
      · exact ⟨_, by with_unfolding_all rfl⟩
      · exact ⟨_, by with_unfolding_all rfl⟩)

/-- **C115 for vectors of pairs with string keys.** -/
theorem C115_pairs (env : Env) (hord : SteadyOrder env) (t : Ty) (kvs : List (Str × Val)) (hp : Apart (kvs.map (·.2)))
    (hd : ∀ p ∈ kvs, ∃ j, serializeToDocument env t p.2 = some (some j)) :
    ∃ ms, serializeToDocument env (.dict t) (.dict kvs) = some (some (.obj ms)) ∧ EntryParts env t kvs ms := by
  obtain ⟨σ', ms, h1, h2⟩ := entries_parts env hord t kvs [] hp (fun _ _ => rfl) hd
  refine ⟨ms, ?_, h2⟩
  simp only [serializeToDocument, ser, serVals_eq, h1, SRes.map, Option.map_some]

example : ∃ ms, serializeToDocument Demo.env (.dict tInt) (.dict [(lit "z", .prim (.int 1)), (lit "a", .prim (.int 2))]) = some (some (.obj ms)) ∧
    EntryParts Demo.env tInt [(lit "z", .prim (.int 1)), (lit "a", .prim (.int 2))] ms :=
  C115_pairs Demo.env (fun _ _ => rfl) _ _ (by simp [Apart, addrs])
    (by
      intro p hp
      simp only [List.mem_cons, List.not_mem_nil, or_false] at hp
      rcases hp with rfl | rfl
      · exact ⟨_, by with_unfolding_all rfl⟩
      · exact ⟨_, by with_unfolding_all rfl⟩)

/-! ## Classes -/

/-- The member variables can be serialized, or fail; nothing is undefined. -/
inductive MembersDefined (env : Env) : List Val → List Member → Prop
  | nil : MembersDefined env [] []
  | skip {m : Member} {vs : List Val} {ms : List Member} (h : m.kind = .optional) (hs : MembersDefined env vs ms) : MembersDefined env (.absent :: vs) (m :: ms)
  | cons {m : Member} {v w : Val} {vs : List Val} {ms : List Member} (hh : Held m v w) (h : serializeToDocument env m.ty w ≠ none) (hs : MembersDefined env vs ms) :
      MembersDefined env (v :: vs) (m :: ms)

theorem serMembers_held (env : Env) {m : Member} {v w : Val} (h : Held m v w) (vs : List Val) (ms : List Member) (segs : List Seg) (σ : STab) :
    addrs v = addrs w ∧ serMembers env (v :: vs) (m :: ms) segs σ = match ser env w m.ty (Seg.name m.name :: segs) σ with
      | .ub => .ub
      | .done σ' none => serMembers env vs ms segs σ'
      | .done σ' (some j) => (serMembers env vs ms segs σ').map ((m.name, j) :: ·) := by
  rw [serMembers.eq_def]
  obtain ⟨name, kind, ty⟩ := m
  rcases h with ⟨h1, rfl⟩ | ⟨h1, rfl⟩
  · simp only at h1
    subst h1
    exact ⟨by simp [addrs], rfl⟩
  · cases kind with
    | optional => exact (h1 rfl).elim
    | required => exact ⟨rfl, rfl⟩
    | default => exact ⟨rfl, rfl⟩

theorem members_parts (env : Env) (hord : SteadyOrder env) {vs : List Val} {ms : List Member} (h : MembersDefined env vs ms) : ∀ σ : STab, Apart vs → (∀ a ∈ addrsAll vs, σ.get a = none) →
    ∃ σ' js, serMembers env vs ms [] σ = .done σ' (some js) ∧ MemberParts env vs ms js := by
  induction h with
  | nil => exact fun σ _ _ => ⟨σ, [], by simp [serMembers], .nil⟩
  | @skip m vs ms hk hs ih =>
    intro σ hp hσ
    obtain ⟨σ', js, h1, h2⟩ := ih σ (List.pairwise_cons.1 hp).2 (fun a ha => hσ a (by simp [addrsAll, ha]))
    refine ⟨σ', js, ?_, .skip hk h2⟩
    obtain ⟨name, kind, ty⟩ := m
    simp only at hk
    subst hk
    rw [serMembers.eq_def]
    exact h1
  | @cons m v w vs ms hh h hs ih =>
    intro σ hp hσ
    obtain ⟨hp1, hp2⟩ := List.pairwise_cons.1 hp
    obtain ⟨he, hstep⟩ := serMembers_held env hh vs ms [] σ
    have hpart := C115_part env hord w m.ty [.name m.name] σ (fun a ha => hσ a (by simp [addrsAll, he, ha]))
    have hrest : ∀ τ : STab, (∀ a, a ∉ addrs w → τ.get a = σ.get a) → ∀ a ∈ addrsAll vs, τ.get a = none := fun τ h3 a ha => by
      obtain ⟨u, hu, ha'⟩ := (mem_addrsAll _ _).1 ha
      rw [h3 a (fun hv => hp1 u hu a (he ▸ hv) ha')]
      exact hσ a (by simp [addrsAll, ha])
    cases hj : serializeToDocument env m.ty w with
    | none => exact (h hj).elim
    | some r =>
      cases r with
      | none =>
        obtain ⟨τ, h1, h3⟩ := hpart.2.1 hj
        obtain ⟨σ', js, h4, h5⟩ := ih τ hp2 (hrest τ h3)
        exact ⟨σ', js, by rw [hstep, h1]; exact h4, .fail hh hj h5⟩
      | some j =>
        obtain ⟨τ, j', h1, h2, h3⟩ := hpart.2.2 j hj
        obtain ⟨σ', js, h4, h5⟩ := ih τ hp2 (hrest τ h3)
        exact ⟨σ', (m.name, j') :: js, by rw [hstep, h1]; simp only [h4, SRes.map, Option.map_some], .cons hh h2 h5⟩

/-- **C115 for classes.** Member variables that do not refer to common objects: the object has the documents of the members, each moved to its place, without members that are not engaged and
without members that cannot be serialized on their own. -/
theorem C115_class (env : Env) (hord : SteadyOrder env) (c : Nat) (vs : List Val) (hp : Apart vs) (hd : MembersDefined env vs (env.members c)) :
    ∃ ms, serializeToDocument env (.cls c) (.obj vs) = some (some (.obj ms)) ∧ MemberParts env vs (env.members c) ms := by
  obtain ⟨σ', ms, h1, h2⟩ := members_parts env hord hd [] hp (fun _ _ => rfl)
  exact ⟨ms, by simp only [serializeToDocument, ser, h1, SRes.map, Option.map_some], h2⟩

example : ∃ ms, serializeToDocument Demo.env (.cls 1) item8 = some (some (.obj ms)) ∧ MemberParts Demo.env [.prim (.int 8), .absent, .prim (.int 0)] (Demo.env.members 1) ms :=
  C115_class Demo.env (fun _ _ => rfl) 1 [.prim (.int 8), .absent, .prim (.int 0)] (by simp [Apart, addrs])
    (.cons (.inr ⟨nofun, rfl⟩) nofun (.skip rfl (.cons (.inr ⟨nofun, rfl⟩) nofun .nil)))

example : ∃ ms, serializeToDocument Demo.env (.cls 2) (.obj [.sptr 100 item7, .sptr 200 item8]) = some (some (.obj ms)) ∧
    MemberParts Demo.env [.sptr 100 item7, .sptr 200 item8] (Demo.env.members 2) ms :=
  C115_class Demo.env (fun _ _ => rfl) 2 [.sptr 100 item7, .sptr 200 item8] (by simp [Apart, addrs, addrsAll, item7, item8])
    (.cons (.inr ⟨nofun, rfl⟩) (fun h => nomatch (show some _ = none from h)) (.cons (.inr ⟨nofun, rfl⟩) (fun h => nomatch (show some _ = none from h)) .nil))

/-! ## Writing -/

/-- **C115 for the writer.** What is written for a vector without reporting a failure is the text of the moved documents of the elements. -/
theorem C115_written (env : Env) (hord : SteadyOrder env) (t : Ty) (vs : List Val) (hp : Apart vs) (hd : ∀ v ∈ vs, ∃ j, serializeToDocument env t v = some (some j))
    (before es : List Event) (h : writeToString env (.vec t) (.seq vs) before = some (true, es)) :
    ∃ js, es = events (.arr js) ∧ Parts env 0 vs (List.replicate vs.length t) js := by
  obtain ⟨j, h1, h2⟩ := C28_same_text_partial env _ _ _ _ h
  obtain ⟨js, h3, h4⟩ := C115_vector env hord t vs hp hd
  rw [h3] at h1
  cases h1
  exact ⟨js, h2.symm, h4⟩

example : ∃ js, events (.arr [.arr [.num (.int 5), dirDoc [(lit "$ref", lit "/0/0")]], .arr [.num (.int 6)]]) = events (.arr js) ∧
    Parts Demo.env 0 [.seq [.sptr 1 (.prim (.int 5)), .sptr 1 (.prim (.int 5))], .seq [.sptr 2 (.prim (.int 6))]] [.vec (.sptr tInt), .vec (.sptr tInt)] js :=
  C115_written Demo.env (fun _ _ => rfl) (.vec (.sptr tInt)) [.seq [.sptr 1 (.prim (.int 5)), .sptr 1 (.prim (.int 5))], .seq [.sptr 2 (.prim (.int 6))]] (by simp [Apart, addrs, addrsAll])
    (by
      intro v hv
      simp only [List.mem_cons, List.not_mem_nil, or_false] at hv
      rcases hv with rfl | rfl
      · exact ⟨_, by with_unfolding_all rfl⟩
      · exact ⟨_, by with_unfolding_all rfl⟩) [] _ (by with_unfolding_all rfl)

/-! ## Parts with common objects -/

/-- A part that refers to an object of an earlier part is not written as it is on its own: the second element is a reference. -/
theorem C115_common : ∃ (vs : List Val) (js : List Json), (∀ v ∈ vs, serializeToDocument Demo.env (.sptr tInt) v = some (some (.num (.int 5)))) ∧
    serializeToDocument Demo.env (.vec (.sptr tInt)) (.seq vs) = some (some (.arr js)) ∧ ¬ Parts Demo.env 0 vs (List.replicate vs.length (.sptr tInt)) js := by
  refine ⟨[.sptr 1 (.prim (.int 5)), .sptr 1 (.prim (.int 5))], [.num (.int 5), dirDoc [(lit "$ref", lit "/0")]], ?_, by with_unfolding_all rfl, ?_⟩
  · intro v hv
    simp only [List.mem_cons, List.not_mem_nil, or_false, or_self] at hv
    subst hv
    with_unfolding_all rfl
  · intro h
    cases h with
    | cons _ h =>
      cases h with
      | cons h _ =>
        obtain ⟨j, h1, ⟨T, h2, h3⟩, -⟩ := h.here
        rw [show serializeToDocument Demo.env (.sptr tInt) (.sptr 1 (.prim (.int 5))) = some (some (.num (.int 5))) by with_unfolding_all rfl] at h1
        cases h1
        cases T with
        | leaf j => rw [Tmpl.fill] at h2 h3; rw [← h2] at h3; cases h3
        | ref s => rw [Tmpl.fill] at h2; cases h2
        | arr ts => rw [Tmpl.fill] at h2; cases h2
        | obj ms => rw [Tmpl.fill] at h2; cases h2

end Verif.Props
