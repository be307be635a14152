import Verif.WriteLemmas

/-!
# What a document says about a value

Specification of serialization that does not mention reference tables, segments or evaluation order
beyond the order of the document: `Shows env v t pos j tr` says that the document node `j`, at place `pos`,
renders the value `v` of type `t`, where `tr` lists the shared objects in the order in which their text
ends: written in full at a place, or as a reference with a path text.
-/

namespace Verif.Core
open Verif.Numeric

/-! ## Properties of values -/

mutual
/-- All floating-point numbers reached from the value are finite. -/
def finite : Val → Bool
  | .prim (.flt f) => f.isFinite
  | .prim _ => true
  | .seq vs => finiteAll vs
  | .tup vs => finiteAll vs
  | .set vs => finiteAll vs
  | .map kvs => finiteVals kvs
  | .dict kvs => finiteVals kvs
  | .alt _ v => finite v
  | .obj vs => finiteAll vs
  | .absent => true
  | .present v => finite v
  | .nullptr => true
  | .uptr v => finite v
  | .sptr _ v => finite v

/-- `finite` for lists. -/
def finiteAll : List Val → Bool
  | [] => true
  | v :: vs => finite v && finiteAll vs

/-- `finite` for the values of a map. -/
def finiteVals : List (Str × Val) → Bool
  | [] => true
  | (_, v) :: kvs => finite v && finiteVals kvs
end

mutual
/-- The addresses of the shared objects reached from the value. -/
def addrs : Val → List Nat
  | .prim _ => []
  | .seq vs => addrsAll vs
  | .tup vs => addrsAll vs
  | .set vs => addrsAll vs
  | .map kvs => addrsVals kvs
  | .dict kvs => addrsVals kvs
  | .alt _ v => addrs v
  | .obj vs => addrsAll vs
  | .absent => []
  | .present v => addrs v
  | .nullptr => []
  | .uptr v => addrs v
  | .sptr a v => a :: addrs v

/-- `addrs` for lists. -/
def addrsAll : List Val → List Nat
  | [] => []
  | v :: vs => addrs v ++ addrsAll vs

/-- `addrs` for the values of a map. -/
def addrsVals : List (Str × Val) → List Nat
  | [] => []
  | (_, v) :: kvs => addrs v ++ addrsVals kvs
end

/-- A name that a path can express: not empty, without `/` and `~`. -/
def PlainName (s : Str) : Prop := s ≠ [] ∧ plain s = true

/-- Member names of each class can be expressed in paths and are pairwise distinct. -/
def Env.PlainNames (env : Env) : Prop :=
  ∀ c, (∀ m ∈ env.members c, PlainName m.name) ∧ ((env.members c).map (·.name)).Nodup

mutual
/-- Paths can express every place of the value: no container with `2^32 - 1` or more elements, keys
without `/` and `~`, and no shared objects inside sets. -/
def PathSafe : Val → Prop
  | .prim _ => True
  | .seq vs => vs.length < 2 ^ 32 - 1 ∧ PathSafeAll vs
  | .tup vs => vs.length < 2 ^ 32 - 1 ∧ PathSafeAll vs
  | .set vs => addrsAll vs = []
  | .map kvs => PathSafeVals kvs
  | .dict kvs => PathSafeVals kvs ∧ (kvs.map (·.1)).Nodup
  | .alt _ v => PathSafe v
  | .obj vs => PathSafeAll vs
  | .absent => True
  | .present v => PathSafe v
  | .nullptr => True
  | .uptr v => PathSafe v
  | .sptr _ v => PathSafe v

/-- `PathSafe` for lists. -/
def PathSafeAll : List Val → Prop
  | [] => True
  | v :: vs => PathSafe v ∧ PathSafeAll vs

/-- `PathSafe` for maps. -/
def PathSafeVals : List (Str × Val) → Prop
  | [] => True
  | (k, v) :: kvs => PlainName k ∧ PathSafe v ∧ PathSafeVals kvs
end

theorem finiteAll_iff (vs : List Val) : finiteAll vs = true ↔ ∀ v ∈ vs, finite v = true := by
  induction vs with
  | nil => simp [finiteAll]
  | cons v vs ih => simp [finiteAll, ih]

theorem finiteVals_iff (kvs : List (Str × Val)) : finiteVals kvs = true ↔ ∀ p ∈ kvs, finite p.2 = true := by
  induction kvs with
  | nil => simp [finiteVals]
  | cons p kvs ih => cases p; simp [finiteVals, ih]

theorem mem_addrsAll (a : Nat) (vs : List Val) : a ∈ addrsAll vs ↔ ∃ v ∈ vs, a ∈ addrs v := by
  induction vs with
  | nil => simp [addrsAll]
  | cons v vs ih => simp [addrsAll, ih]

theorem mem_addrsVals (a : Nat) (kvs : List (Str × Val)) : a ∈ addrsVals kvs ↔ ∃ p ∈ kvs, a ∈ addrs p.2 := by
  induction kvs with
  | nil => simp [addrsVals]
  | cons p kvs ih => cases p; simp [addrsVals, ih]

theorem PathSafeAll_iff (vs : List Val) : PathSafeAll vs ↔ ∀ v ∈ vs, PathSafe v := by
  induction vs with
  | nil => simp [PathSafeAll]
  | cons v vs ih => simp [PathSafeAll, ih]

theorem PathSafeVals_iff (kvs : List (Str × Val)) : PathSafeVals kvs ↔ ∀ p ∈ kvs, PlainName p.1 ∧ PathSafe p.2 := by
  induction kvs with
  | nil => simp [PathSafeVals]
  | cons p kvs ih => cases p; simp [PathSafeVals, ih, and_assoc]

/-! ## Documents that show a value -/

/-- An occurrence of a shared object in a document. -/
inductive Occ where
  /-- written in full at the place (child positions, innermost first) -/
  | full (a : Nat) (pos : List Nat)
  /-- written as `{"$ref": path}` -/
  | ref (a : Nat) (path : Str)

mutual
/-- The node `j` at place `pos` renders the value `v` of type `t`. -/
inductive Shows (env : Env) : Val → Ty → List Nat → Json → List Occ → Prop where
  | prim {p k pos j} : serPrim env k p = .ok j → Shows env (.prim p) (.prim k) pos j []
  | vec {vs t pos js tr} : ShowsItems env vs (List.replicate vs.length t) pos 0 js tr →
      Shows env (.seq vs) (.vec t) pos (.arr js) tr
  | arr {vs n t pos js tr} : ShowsItems env vs (List.replicate n t) pos 0 js tr →
      Shows env (.tup vs) (.arr n t) pos (.arr js) tr
  | tuple {vs ts pos js tr} : ShowsItems env vs ts pos 0 js tr → Shows env (.tup vs) (.tuple ts) pos (.arr js) tr
  | set {vs t pos js tr} : ShowsItems env vs (List.replicate vs.length t) pos 0 js tr →
      Shows env (.set vs) (.set t) pos (.arr js) tr
  | map {kvs kvs' ordered t pos js tr} : kvs'.Perm kvs → (ordered = true → kvs' = kvs) →
      ShowsVals env kvs' t pos 0 js tr → Shows env (.map kvs) (.map ordered t) pos (.obj js) tr
  | dict {kvs t pos js tr} : ShowsVals env kvs t pos 0 js tr → Shows env (.dict kvs) (.dict t) pos (.obj js) tr
  | alt {i v ts t pos j tr} : ts[i]? = some t → Shows env v t pos j tr → Shows env (.alt i v) (.variant ts) pos j tr
  | cls {vs c pos js tr} : ShowsMembers env vs (env.members c) pos 0 js tr → Shows env (.obj vs) (.cls c) pos (.obj js) tr
  | uptr {v t pos j tr} : Shows env v t pos j tr → Shows env (.uptr v) (.uptr t) pos j tr
  | full {a v t pos j tr} : Shows env v t pos j tr → Shows env (.sptr a v) (.sptr t) pos j (tr ++ [.full a pos])
  | ref {a v t pos p} : Shows env (.sptr a v) (.sptr t) pos (.obj [(lit "$ref", .str p)]) [.ref a p]

/-- Elements from position `k` on. -/
inductive ShowsItems (env : Env) : List Val → List Ty → List Nat → Nat → List Json → List Occ → Prop where
  | nil {pos k} : ShowsItems env [] [] pos k [] []
  | cons {v vs t ts pos k j js tr tr'} : Shows env v t (k :: pos) j tr → ShowsItems env vs ts pos (k + 1) js tr' →
      ShowsItems env (v :: vs) (t :: ts) pos k (j :: js) (tr ++ tr')

/-- Map entries from position `k` on. -/
inductive ShowsVals (env : Env) : List (Str × Val) → Ty → List Nat → Nat → List (Str × Json) → List Occ → Prop where
  | nil {t pos k} : ShowsVals env [] t pos k [] []
  | cons {key v kvs t pos k j js tr tr'} : Shows env v t (k :: pos) j tr → ShowsVals env kvs t pos (k + 1) js tr' →
      ShowsVals env ((key, v) :: kvs) t pos k ((key, j) :: js) (tr ++ tr')

/-- Members of a class from position `k` on: a disengaged optional member is not there. -/
inductive ShowsMembers (env : Env) : List Val → List Member → List Nat → Nat → List (Str × Json) → List Occ → Prop where
  | nil {pos k} : ShowsMembers env [] [] pos k [] []
  | skip {vs m ms pos k js tr} : m.kind = .optional → ShowsMembers env vs ms pos k js tr →
      ShowsMembers env (.absent :: vs) (m :: ms) pos k js tr
  | engaged {v vs m ms pos k j js tr tr'} : m.kind = .optional → Shows env v m.ty (k :: pos) j tr →
      ShowsMembers env vs ms pos (k + 1) js tr' →
      ShowsMembers env (.present v :: vs) (m :: ms) pos k ((m.name, j) :: js) (tr ++ tr')
  | plain {v vs m ms pos k j js tr tr'} : m.kind ≠ .optional → Shows env v m.ty (k :: pos) j tr →
      ShowsMembers env vs ms pos (k + 1) js tr' →
      ShowsMembers env (v :: vs) (m :: ms) pos k ((m.name, j) :: js) (tr ++ tr')
end

/-- The addresses of the objects written in full, in order. -/
def fulls : List Occ → List Nat
  | [] => []
  | .full a _ :: tr => a :: fulls tr
  | .ref _ _ :: tr => fulls tr

/-- No object is written in full twice, and references are to objects already written; `seen` are the
objects written before. -/
def Good : List Nat → List Occ → Prop
  | _, [] => True
  | seen, .full a _ :: tr => a ∉ seen ∧ Good (a :: seen) tr
  | seen, .ref a _ :: tr => a ∈ seen ∧ Good seen tr

theorem fulls_append (t1 t2 : List Occ) : fulls (t1 ++ t2) = fulls t1 ++ fulls t2 := by
  induction t1 with
  | nil => rfl
  | cons o t1 ih => cases o <;> simp [fulls, ih]

theorem Good_append (seen : List Nat) (t1 t2 : List Occ) :
    Good seen (t1 ++ t2) ↔ Good seen t1 ∧ Good ((fulls t1).reverse ++ seen) t2 := by
  induction t1 generalizing seen with
  | nil => simp [Good, fulls]
  | cons o t1 ih => cases o <;> simp [Good, fulls, ih, and_assoc]

theorem Good.nodup {seen : List Nat} {tr : List Occ} (h : Good seen tr) : (fulls tr).Nodup ∧ ∀ a ∈ fulls tr, a ∉ seen := by
  induction tr generalizing seen with
  | nil => simp [fulls]
  | cons o tr ih =>
    cases o with
    | full a pos =>
      obtain ⟨h1, h2⟩ := h
      obtain ⟨h3, h4⟩ := ih h2
      refine ⟨?_, ?_⟩
      · rw [fulls, List.nodup_cons]
        exact ⟨fun hm => h4 a hm (by simp), h3⟩
      · intro b hb
        rcases List.mem_cons.1 hb with rfl | hb
        · exact h1
        · exact fun hm => h4 b hb (by simp [hm])
    | ref a p => exact ih h.2

/-- A reference is preceded by the full text of the object. -/
theorem Good.ref_before {tr1 tr2 : List Occ} {a : Nat} {p : Str} (h : Good [] (tr1 ++ .ref a p :: tr2)) :
    a ∈ fulls tr1 := by
  rw [Good_append] at h
  simpa [Good] using h.2.1

end Verif.Core
