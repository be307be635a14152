import Verif.SchemaLemmas

/-!
# The work of generating a schema

`genLog` is `gen` (schema.hpp:389-581) together with a list of the calls of `JsonSchema<T>::type` that are made, each
with its type. `children` and `typeAt` are the specification: the places of a type.
-/

namespace Verif.Core
open Verif.Numeric Verif.EnumConv

/-! ## Model -/

/-- A step of the generator with the types for which `JsonSchema<T>::type` has been called. -/
abbrev GenLog (α : Type) := Option ((α × Defs) × List Ty)

/-- `make_schema<T>` (schema.hpp:389-410): the arguments of `insert` are made before the map is looked at, so the schema
of a class is generated whether or not there is a definition for it. -/
def makeLog (env : Env) (gen : Ty → Defs → GenLog Schema) (t : Ty) (defs : Defs) : GenLog Schema :=
  match t with
  | .cls c => (gen (.cls c) defs).map fun ((s, defs'), l) => ((.ref (defRef (env.classes c).name), defs'.insert (env.classes c).name s), l)
  | t => gen t defs

/-- `(items.push_back(make_schema_ptr<T>(context)), ...)` (schema.hpp:514, 535). -/
def makesLog (make : Ty → Defs → GenLog Schema) : List Ty → Defs → GenLog (List Schema)
  | [], defs => some (([], defs), [])
  | t :: ts, defs => (make t defs).bind fun ((s, defs'), l) => (makesLog make ts defs').map fun ((ss, defs''), l') => ((s :: ss, defs''), l ++ l')

/-- The visitor of a class (`JsonSchemaVisitor`, schema.hpp:418-451). -/
def visitLog (make : Ty → Defs → GenLog Schema) : List Member → Defs → GenLog (List (Str × Schema) × List Str)
  | [], defs => some ((([], []), defs), [])
  | m :: ms, defs =>
      (make m.ty defs).bind fun ((s, defs'), l) =>
        (visitLog make ms defs').map fun (((ps, rs), defs''), l') =>
          ((((m.name, s) :: ps, if m.kind = .optional then rs else m.name :: rs), defs''), l ++ l')

/-- `JsonSchema<T>::type` (schema.hpp:241-581), with at most `fuel` nested calls (see `gen`). For a class each call also
makes an object of the class (`T().persist(visitor)`, 463). -/
def genLog (env : Env) : Nat → Ty → Defs → GenLog Schema
  | 0, _, _ => none
  | fuel + 1, t, defs =>
      let make := makeLog env (genLog env fuel)
      match t with
      | .prim p => some ((primSchema p, defs), [t])
      | .vec u => (make u defs).map fun ((s, defs'), l) => ((.items s false none, defs'), t :: l)
      | .arr n u => (make u defs).map fun ((s, defs'), l) => ((.items s false (some n), defs'), t :: l)
      | .set u => (make u defs).map fun ((s, defs'), l) => ((.items s true none, defs'), t :: l)
      | .map _ u => (make u defs).map fun ((s, defs'), l) => ((.mapping s, defs'), t :: l)
      | .dict u => (make (.tuple [.prim .str, u]) defs).map fun ((s, defs'), l) => ((.items s false none, defs'), t :: l)
      | .tuple ts => (makesLog make ts defs).map fun ((ss, defs'), l) => ((.tuple ss, defs'), t :: l)
      | .variant ts => (makesLog make ts defs).map fun ((ss, defs'), l) => ((.oneOf ss, defs'), t :: l)
      | .cls c => (visitLog make (env.members c) defs).map fun (((ps, rs), defs'), l) => ((.object ps rs, defs'), t :: l)
      | .uptr u => (genLog env fuel u defs).map fun ((s, defs'), l) => ((s, defs'), t :: l)
      | .sptr u => (genLog env fuel u defs).map fun ((s, defs'), l) => ((s, defs'), t :: l)

/-! ## Specification -/

/-- The types of which a type consists: elements, alternatives, member variables, what a pointer points to. -/
def children (env : Env) : Ty → List Ty
  | .prim _ => []
  | .vec t | .arr _ t | .set t | .map _ t | .uptr t | .sptr t => [t]
  | .dict t => [.tuple [.prim .str, t]]
  | .tuple ts | .variant ts => ts
  | .cls c => (env.members c).map (·.ty)

/-- The type at a place of a type: a place is a list of numbers, which child to go to next. -/
def typeAt (env : Env) : Ty → List Nat → Option Ty
  | t, [] => some t
  | t, i :: p => ((children env t)[i]?).bind fun u => typeAt env u p

mutual
/-- The number of types in a type as it is spelled, without looking into classes. -/
def spelled : Ty → Nat
  | .prim _ => 1
  | .vec t | .arr _ t | .set t | .map _ t | .uptr t | .sptr t => 1 + spelled t
  | .dict t => 3 + spelled t
  | .tuple ts | .variant ts => 1 + spelledAll ts
  | .cls _ => 1

/-- The same for several types. -/
def spelledAll : List Ty → Nat
  | [] => 0
  | t :: ts => spelled t + spelledAll ts
end

/-- The number of types in the member variables of a class, as they are spelled; 0 for other types. -/
def spelledIn (env : Env) : Ty → Nat
  | .cls c => spelledAll ((env.members c).map (·.ty))
  | _ => 0

/-! ## The log does not change what is generated -/

theorem makeLog_fst (env : Env) {g : Ty → Defs → GenLog Schema} {g' : Ty → Defs → Gen Schema} (hg : ∀ t d, (g t d).map (·.1) = g' t d) (t : Ty) (d : Defs) :
    (makeLog env g t d).map (·.1) = makeWith env g' t d := by
  cases t <;> simp only [makeLog, makeWith, ← hg, Option.map_map] <;> rfl

theorem makesLog_fst {g : Ty → Defs → GenLog Schema} {g' : Ty → Defs → Gen Schema} (hg : ∀ t d, (g t d).map (·.1) = g' t d) :
    ∀ (ts : List Ty) (d : Defs), (makesLog g ts d).map (·.1) = makesWith g' ts d := by
  intro ts
  induction ts with
  | nil => intro d; rfl
  | cons t ts ih =>
    intro d
    simp only [makesLog, makesWith, ← hg]
    cases g t d with
    | none => rfl
    | some r =>
      simp only [Option.bind_some, Option.map_some, ← ih, Option.map_map]
      rfl

theorem visitLog_fst {g : Ty → Defs → GenLog Schema} {g' : Ty → Defs → Gen Schema} (hg : ∀ t d, (g t d).map (·.1) = g' t d) :
    ∀ (ms : List Member) (d : Defs), (visitLog g ms d).map (·.1) = visitWith g' ms d := by
  intro ms
  induction ms with
  | nil => intro d; rfl
  | cons m ms ih =>
    intro d
    simp only [visitLog, visitWith, ← hg]
    cases g m.ty d with
    | none => rfl
    | some r =>
      simp only [Option.bind_some, Option.map_some, ← ih, Option.map_map]
      rfl

theorem genLog_fst (env : Env) : ∀ n t d, (genLog env n t d).map (·.1) = gen env n t d := by
  intro n
  induction n with
  | zero => intro t d; rfl
  | succ n ih =>
    intro t d
    have hm := makeLog_fst env ih
    have hs := makesLog_fst hm
    have hv := visitLog_fst hm
    cases t <;> simp only [genLog, gen, ← hm, ← hs, ← hv, ← ih, Option.map_map, Option.map_some] <;> rfl

/-! ## The calls below a call -/

/-- The list consists of one part for each type, in this order. -/
inductive Kids (P : Ty → List Ty → Prop) : List Ty → List Ty → Prop
  | nil : Kids P [] []
  | cons {t ts l l'} : P t l → Kids P ts l' → Kids P (t :: ts) (l ++ l')

theorem Kids.one {P : Ty → List Ty → Prop} {t : Ty} {l : List Ty} (h : P t l) : Kids P [t] l := by
  have := Kids.cons h (.nil (P := P))
  rwa [List.append_nil] at this

/-- A call for the type with these calls. -/
def Called (env : Env) (n : Nat) (t : Ty) (l : List Ty) : Prop := ∃ d r, genLog env n t d = some (r, l)

theorem makeLog_called {env : Env} {n : Nat} {t : Ty} {d : Defs} {r : Schema × Defs} {l : List Ty} (h : makeLog env (genLog env n) t d = some (r, l)) : Called env n t l := by
  cases t with
  | cls c =>
    simp only [makeLog, Option.map_eq_some_iff] at h
    obtain ⟨⟨r', l'⟩, h1, h2⟩ := h
    cases h2
    exact ⟨_, _, h1⟩
  | _ => exact ⟨_, _, h⟩

theorem makesLog_called {env : Env} {n : Nat} : ∀ {ts : List Ty} {d : Defs} {r : List Schema × Defs} {l : List Ty},
    makesLog (makeLog env (genLog env n)) ts d = some (r, l) → Kids (Called env n) ts l := by
  intro ts
  induction ts with
  | nil => intro d r l h; cases h; exact .nil
  | cons t ts ih =>
    intro d r l h
    simp only [makesLog, Option.bind_eq_some_iff, Option.map_eq_some_iff] at h
    obtain ⟨⟨r1, l1⟩, h1, ⟨r2, l2⟩, h2, h3⟩ := h
    cases h3
    exact .cons (makeLog_called h1) (ih h2)

theorem visitLog_called {env : Env} {n : Nat} : ∀ {ms : List Member} {d : Defs} {r : (List (Str × Schema) × List Str) × Defs} {l : List Ty},
    visitLog (makeLog env (genLog env n)) ms d = some (r, l) → Kids (Called env n) (ms.map (·.ty)) l := by
  intro ms
  induction ms with
  | nil => intro d r l h; cases h; exact .nil
  | cons m ms ih =>
    intro d r l h
    simp only [visitLog, Option.bind_eq_some_iff, Option.map_eq_some_iff] at h
    obtain ⟨⟨r1, l1⟩, h1, ⟨r2, l2⟩, h2, h3⟩ := h
    cases h3
    exact .cons (makeLog_called h1) (ih h2)

theorem called_succ {env : Env} {n : Nat} {t : Ty} {l : List Ty} (h : Called env (n + 1) t l) : ∃ l', l = t :: l' ∧ Kids (Called env n) (children env t) l' := by
  obtain ⟨d, r, h⟩ := h
  cases t with
  | prim p => cases h; exact ⟨_, rfl, .nil⟩
  | vec u | arr n u | set u | map _ u | dict u =>
    simp only [genLog, Option.map_eq_some_iff] at h
    obtain ⟨⟨r1, l1⟩, h1, h3⟩ := h
    cases h3
    exact ⟨_, rfl, .one (makeLog_called h1)⟩
  | tuple ts | variant ts =>
    simp only [genLog, Option.map_eq_some_iff] at h
    obtain ⟨⟨r1, l1⟩, h1, h3⟩ := h
    cases h3
    exact ⟨_, rfl, makesLog_called h1⟩
  | cls c =>
    simp only [genLog, Option.map_eq_some_iff] at h
    obtain ⟨⟨r1, l1⟩, h1, h3⟩ := h
    cases h3
    exact ⟨_, rfl, visitLog_called h1⟩
  | uptr u | sptr u =>
    simp only [genLog, Option.map_eq_some_iff] at h
    obtain ⟨⟨r1, l1⟩, h1, h3⟩ := h
    cases h3
    exact ⟨_, rfl, .one ⟨_, _, h1⟩⟩

/-! ## A call for each place -/

/-- The list is made of the types at the places of the type, one entry for each. -/
def Placed (env : Env) (t : Ty) (l : List Ty) : Prop :=
  ∃ ps : List (List Nat), ps.Nodup ∧ (∀ p, p ∈ ps ↔ (typeAt env t p).isSome) ∧ l.map some = ps.map (typeAt env t)

/-- The same for the places below several types, with the number of the type first. -/
def PlacedIn (env : Env) (ts : List Ty) (l : List Ty) : Prop :=
  ∃ ps : List (List Nat), ps.Nodup ∧ (∀ p, p ∈ ps ↔ ∃ i q, p = i :: q ∧ ((ts[i]?).bind fun u => typeAt env u q).isSome) ∧
    l.map some = ps.map fun p => match p with | [] => none | i :: q => (ts[i]?).bind fun u => typeAt env u q

/-- The place one type further. -/
def further : List Nat → List Nat
  | [] => []
  | i :: q => (i + 1) :: q

theorem further_inj {p q : List Nat} (h : further p = further q) : p = q := by
  cases p <;> cases q <;> simp_all [further]

theorem placed_kids {env : Env} {P : Ty → List Ty → Prop} (hP : ∀ t l, P t l → Placed env t l) {ts : List Ty} {l : List Ty} (h : Kids P ts l) : PlacedIn env ts l := by
  induction h with
  | nil => exact ⟨[], .nil, fun p => by simp, rfl⟩
  | @cons t ts l l' h _ ih =>
    obtain ⟨ps, h1, h2, h3⟩ := hP _ _ h
    obtain ⟨qs, k1, k2, k3⟩ := ih
    refine ⟨ps.map (0 :: ·) ++ qs.map further, ?_, ?_, ?_⟩
    · rw [List.nodup_append]
      refine ⟨List.Pairwise.map _ (fun a b hab hc => hab (List.cons.inj hc).2) h1, List.Pairwise.map _ (fun a b hab hc => hab (further_inj hc)) k1, ?_⟩
      intro a ha b hb hab
      obtain ⟨p, _, rfl⟩ := List.mem_map.1 ha
      obtain ⟨q, hq, rfl⟩ := List.mem_map.1 hb
      obtain ⟨i, q', rfl, _⟩ := (k2 q).1 hq
      exact absurd (List.cons.inj hab).1 (by omega)
    · intro p
      rw [List.mem_append, List.mem_map, List.mem_map]
      constructor
      · rintro (⟨q, hq, rfl⟩ | ⟨q, hq, rfl⟩)
        · exact ⟨0, q, rfl, (h2 q).1 hq⟩
        · obtain ⟨i, q', rfl, hi⟩ := (k2 q).1 hq
          exact ⟨i + 1, q', rfl, hi⟩
      · rintro ⟨i, q, rfl, hi⟩
        cases i with
        | zero => exact .inl ⟨q, (h2 q).2 hi, rfl⟩
        | succ i => exact .inr ⟨i :: q, (k2 _).2 ⟨i, q, rfl, hi⟩, rfl⟩
    · rw [List.map_append, List.map_append, h3, k3, List.map_map, List.map_map]
      refine congr (congrArg _ (List.map_congr_left fun p _ => rfl)) (List.map_congr_left fun q hq => ?_)
      obtain ⟨i, q', rfl, _⟩ := (k2 q).1 hq
      rfl

theorem called_placed (env : Env) : ∀ n t l, Called env n t l → Placed env t l := by
  intro n
  induction n with
  | zero => rintro t l ⟨d, r, h⟩; cases h
  | succ n ih =>
    intro t l h
    obtain ⟨l', rfl, hk⟩ := called_succ h
    obtain ⟨ps, h1, h2, h3⟩ := placed_kids ih hk
    refine ⟨[] :: ps, ?_, ?_, ?_⟩
    · refine List.nodup_cons.2 ⟨fun hm => ?_, h1⟩
      obtain ⟨i, q, h, _⟩ := (h2 []).1 hm
      cases h
    · intro p
      cases p with
      | nil => simp [typeAt]
      | cons i q =>
        rw [List.mem_cons, h2]
        constructor
        · rintro (h | ⟨i', q', h, hi⟩)
          · cases h
          · cases h; exact hi
        · intro hi
          exact .inr ⟨i, q, rfl, hi⟩
    · rw [List.map_cons, List.map_cons, h3]
      refine congrArg _ (List.map_congr_left fun p hp => ?_)
      obtain ⟨i, q, rfl, _⟩ := (h2 p).1 hp
      rfl

/-! ## The number of calls -/

theorem spelled_children (env : Env) (t : Ty) : 1 + spelledAll (children env t) = spelled t + spelledIn env t := by
  cases t <;> simp [children, spelled, spelledAll, spelledIn] <;> omega

theorem length_kids {env : Env} {P : Ty → List Ty → Prop} (hP : ∀ t l, P t l → l.length = spelled t + (l.map (spelledIn env)).sum) {ts : List Ty} {l : List Ty}
    (h : Kids P ts l) : l.length = spelledAll ts + (l.map (spelledIn env)).sum := by
  induction h with
  | nil => rfl
  | cons h _ ih =>
    have := hP _ _ h
    rw [List.length_append, List.map_append, List.sum_append, spelledAll]
    omega

theorem called_length (env : Env) : ∀ n t l, Called env n t l → l.length = spelled t + (l.map (spelledIn env)).sum := by
  intro n
  induction n with
  | zero => rintro t l ⟨d, r, h⟩; cases h
  | succ n ih =>
    intro t l h
    obtain ⟨l', rfl, hk⟩ := called_succ h
    have h1 := length_kids ih hk
    have h2 := spelled_children env t
    rw [List.length_cons, List.map_cons, List.sum_cons]
    omega

end Verif.Core
