import Verif.Conveys
import Verif.ParseLemmas

/-!
# Documents that differ in the way in which numbers are written

`DocAlike N j j'`: the documents are the same but for the numbers, which are related by `N`. If the leaves of a type do the same with related
numbers, the readers do the same with both documents.
-/

namespace Verif.Numerals
open Verif.Core Verif.Numeric

mutual
/-- The documents differ in their numbers only, and these are related. -/
inductive DocAlike (N : JsonNum → JsonNum → Prop) : Json → Json → Prop
  | null : DocAlike N .null .null
  | bool (b : Bool) : DocAlike N (.bool b) (.bool b)
  | num (m n : JsonNum) : N m n → DocAlike N (.num m) (.num n)
  | str (s : Str) : DocAlike N (.str s) (.str s)
  | arr (js js' : List Json) : DocAlikeAll N js js' → DocAlike N (.arr js) (.arr js')
  | obj (ms ms' : List (Str × Json)) : DocAlikeFields N ms ms' → DocAlike N (.obj ms) (.obj ms')

/-- The same for elements. -/
inductive DocAlikeAll (N : JsonNum → JsonNum → Prop) : List Json → List Json → Prop
  | nil : DocAlikeAll N [] []
  | cons (j j' : Json) (js js' : List Json) : DocAlike N j j' → DocAlikeAll N js js' → DocAlikeAll N (j :: js) (j' :: js')

/-- The same for members; the keys are the same. -/
inductive DocAlikeFields (N : JsonNum → JsonNum → Prop) : List (Str × Json) → List (Str × Json) → Prop
  | nil : DocAlikeFields N [] []
  | cons (k : Str) (j j' : Json) (ms ms' : List (Str × Json)) : DocAlike N j j' → DocAlikeFields N ms ms' → DocAlikeFields N ((k, j) :: ms) ((k, j') :: ms')
end

/-- All types without components that occur in the type are of a kind. -/
def Leaves (L : Prim → Prop) (env : Env) (t : Ty) : Prop := ∀ p, Within env t (.prim p) → L p

theorem within_step {env : Env} {t u v : Ty} (h1 : Inner env t u) (h2 : Within env u v) : Within env t v := by
  induction h2 with
  | self => exact .inner _ _ .self h1
  | inner t1 t2 _ h ih => exact .inner _ _ ih h

variable {L : Prim → Prop}

theorem Leaves.inner {env : Env} {t u : Ty} (h : Leaves L env t) (hi : Inner env t u) : Leaves L env u := fun p hw => h p (within_step hi hw)

variable {N : JsonNum → JsonNum → Prop}

theorem alikeAll_length : ∀ {js js' : List Json}, DocAlikeAll N js js' → js.length = js'.length
  | _, _, .nil => rfl
  | _, _, .cons _ _ _ _ _ h => by rw [List.length_cons, List.length_cons, alikeAll_length h]

theorem alikeAll_get : ∀ {js js' : List Json} (n : Nat), DocAlikeAll N js js' →
    (js[n]? = none ∧ js'[n]? = none) ∨ ∃ j j', js[n]? = some j ∧ js'[n]? = some j' ∧ DocAlike N j j'
  | _, _, _, .nil => .inl ⟨rfl, rfl⟩
  | _, _, 0, .cons j j' _ _ h _ => .inr ⟨j, j', rfl, rfl, h⟩
  | _, _, n + 1, .cons _ _ _ _ _ h => by simpa using alikeAll_get n h

theorem alikeFields_find (name : Str) : ∀ {ms ms' : List (Str × Json)}, DocAlikeFields N ms ms' →
    (findMember name ms = none ∧ findMember name ms' = none) ∨
      ∃ i j j', findMember name ms = some (i, j) ∧ findMember name ms' = some (i, j') ∧ DocAlike N j j'
  | _, _, .nil => .inl ⟨rfl, rfl⟩
  | _, _, .cons k j j' ms ms' h hs => by
    by_cases hk : k = name
    · exact .inr ⟨0, j, j', by simp [findMember, hk], by simp [findMember, hk], h⟩
    · rcases alikeFields_find name hs with ⟨h1, h2⟩ | ⟨i, a, a', h1, h2, h3⟩
      · exact .inl ⟨by simp [findMember, hk, h1], by simp [findMember, hk, h2]⟩
      · exact .inr ⟨i + 1, a, a', by simp [findMember, hk, h1], by simp [findMember, hk, h2], h3⟩

theorem alike_pointer : ∀ (toks : List Str) {j j' : Json}, DocAlike N j j' → pointerGet j toks = pointerGet j' toks
  | [], _, _, _ => by simp [pointerGet]
  | t :: ts, _, _, h => by
    cases h with
    | arr js js' h =>
      simp only [pointerGet]
      cases tokenIndex t with
      | none => rfl
      | some n =>
        rcases alikeAll_get n h with ⟨h1, h2⟩ | ⟨j, j', h1, h2, h3⟩
        · simp only [h1, h2]
        · simp only [h1, h2, alike_pointer ts h3]
    | obj ms ms' h =>
      simp only [pointerGet]
      rcases alikeFields_find t h with ⟨h1, h2⟩ | ⟨i, j, j', h1, h2, h3⟩
      · simp only [h1, h2]
      · simp only [h1, h2, alike_pointer ts h3]
    | _ => rfl

theorem alike_ref (env : Env) {root root' : Json} (hr : DocAlike N root root') (t : Ty) {r r' : Json} (h : DocAlike N r r') (target : Val) (st : DState) :
    readRef env root t r target st = readRef env root' t r' target st := by
  cases h with
  | str s =>
    simp only [readRef]
    cases pointerTokens env s with
    | none => rfl
    | some toks => simp only [alike_pointer toks hr]
  | _ => rfl

/-- Two readers do the same for types with these leaves. -/
def ReadAlike (L : Prim → Prop) (env : Env) (f f' : DesFn) : Prop := ∀ t, Leaves L env t → ∀ exc target loc segs st, f exc t target loc segs st = f' exc t target loc segs st

/-- The same for the readers of elements. -/
inductive ReadAlikeAll (L : Prim → Prop) (env : Env) : List DesFn → List DesFn → Prop
  | nil : ReadAlikeAll L env [] []
  | cons (f f' : DesFn) (fs fs' : List DesFn) : ReadAlike L env f f' → ReadAlikeAll L env fs fs' → ReadAlikeAll L env (f :: fs) (f' :: fs')

/-- The same for the readers of members. -/
inductive ReadAlikeFields (L : Prim → Prop) (env : Env) : List (Str × DesFn) → List (Str × DesFn) → Prop
  | nil : ReadAlikeFields L env [] []
  | cons (k : Str) (f f' : DesFn) (fs fs' : List (Str × DesFn)) : ReadAlike L env f f' → ReadAlikeFields L env fs fs' → ReadAlikeFields L env ((k, f) :: fs) ((k, f') :: fs')

theorem agree_find (env : Env) (name : Str) : ∀ {fs fs' : List (Str × DesFn)}, ReadAlikeFields L env fs fs' →
    (findMember name fs = none ∧ findMember name fs' = none) ∨
      ∃ i f f', findMember name fs = some (i, f) ∧ findMember name fs' = some (i, f') ∧ ReadAlike L env f f'
  | _, _, .nil => .inl ⟨rfl, rfl⟩
  | _, _, .cons k j j' ms ms' h hs => by
    by_cases hk : k = name
    · exact .inr ⟨0, j, j', by simp [findMember, hk], by simp [findMember, hk], h⟩
    · rcases agree_find env name hs with ⟨h1, h2⟩ | ⟨i, a, a', h1, h2, h3⟩
      · exact .inl ⟨by simp [findMember, hk, h1], by simp [findMember, hk, h2]⟩
      · exact .inr ⟨i + 1, a, a', by simp [findMember, hk, h1], by simp [findMember, hk, h2], h3⟩

theorem agree_same (env : Env) (t : Ty) (ht : Leaves L env t) (exc : Bool) : ∀ {fs fs' : List DesFn}, ReadAlikeAll L env fs fs' → ∀ (k : Nat) (loc : Loc) (segs : List Seg) (st : DState),
    runSame env t exc fs k loc segs st = runSame env t exc fs' k loc segs st
  | _, _, .nil, _, _, _, _ => rfl
  | _, _, .cons f f' fs fs' h hs, k, loc, segs, st => by
    simp only [runSame, h t ht, agree_same env t ht exc hs]

theorem agree_tuple (env : Env) (exc : Bool) : ∀ {fs fs' : List DesFn}, ReadAlikeAll L env fs fs' → ∀ (ts : List Ty), (∀ t ∈ ts, Leaves L env t) →
    ∀ (targets : List Val) (k : Nat) (loc : Loc) (segs : List Seg) (st : DState), runTuple env exc fs ts targets k loc segs st = runTuple env exc fs' ts targets k loc segs st
  | _, _, .nil, _, _, _, _, _, _, _ => rfl
  | _, _, .cons f f' fs fs' h hs, [], _, _, _, _, _, _ => by simp [runTuple]
  | _, _, .cons f f' fs fs' h hs, t :: ts, ht, targets, k, loc, segs, st => by
    simp only [runTuple, h t (ht t (by simp)), agree_tuple env exc hs ts fun u hu => ht u (by simp [hu])]

theorem agree_entries (env : Env) (t : Ty) (ht : Leaves L env t) (exc : Bool) : ∀ {fs fs' : List (Str × DesFn)}, ReadAlikeFields L env fs fs' →
    ∀ (k : Nat) (loc : Loc) (segs : List Seg) (st : DState), runEntries env t exc fs k loc segs st = runEntries env t exc fs' k loc segs st
  | _, _, .nil, _, _, _, _ => rfl
  | _, _, .cons key f f' fs fs' h hs, k, loc, segs, st => by
    simp only [runEntries, h t ht, agree_entries env t ht exc hs]

theorem agree_members (env : Env) (exc : Bool) {fs fs' : List (Str × DesFn)} (h : ReadAlikeFields L env fs fs') (loc : Loc) (segs : List Seg) :
    ∀ (ms : List Member), (∀ m ∈ ms, Leaves L env m.ty) → ∀ (targets : List Val) (res : Bool) (st : DState),
      runMembers env exc fs loc segs ms targets res st = runMembers env exc fs' loc segs ms targets res st
  | [], _, _, _, _ => rfl
  | m :: ms, hm, targets, res, st => by
    have ih := agree_members env exc h loc segs ms fun u hu => hm u (by simp [hu])
    rcases agree_find env m.name h with ⟨h1, h2⟩ | ⟨i, f, f', h1, h2, h3⟩
    · simp only [runMembers, h1, h2, ih]
    · simp only [runMembers, h1, h2, h3 m.ty (hm m (by simp)), ih]

theorem alike_prim (env : Env) (hN : ∀ m n, N m n → ∀ p, L p → desPrim env p (.num m) = desPrim env p (.num n)) (p : Prim) (hp : L p) {j j' : Json} (h : DocAlike N j j') :
    desPrim env p j = desPrim env p j' ∧ ∀ target, spoil p j target = spoil p j' target := by
  cases h with
  | num m n hmn => exact ⟨hN m n hmn p hp, fun _ => by cases p <;> rfl⟩
  | arr => cases p <;> exact ⟨rfl, fun _ => rfl⟩
  | obj => cases p <;> exact ⟨rfl, fun _ => rfl⟩
  | _ => exact ⟨rfl, fun _ => rfl⟩

section
variable (env : Env) (hN : ∀ m n, N m n → ∀ p, L p → desPrim env p (.num m) = desPrim env p (.num n)) {root root' : Json} (hr : DocAlike N root root') {j j' : Json} (h : DocAlike N j j') {items items' : List DesFn}
  (hi : ReadAlikeAll L env items items') {fields fields' : List (Str × DesFn)} (hf : ReadAlikeFields L env fields fields')
include hN hr h hi hf

mutual
theorem node_alike : ∀ (t : Ty), Leaves L env t → ∀ (exc : Bool) (target : Val) (loc : Loc) (segs : List Seg) (st : DState),
    node env root j items fields t exc target loc segs st = node env root' j' items' fields' t exc target loc segs st
  | .prim p, ht, exc, target, loc, segs, st => by
    have := alike_prim env hN p (ht p .self) h
    simp only [node, this.1, this.2]
  | .vec t, ht, exc, target, loc, segs, st => by
    simp only [node, agree_same env t (ht.inner (.vec t)) exc hi]
    cases h <;> rfl
  | .arr n t, ht, exc, target, loc, segs, st => by
    simp only [node, agree_same env t (ht.inner (.arr n t)) exc hi]
    cases h with
    | arr js js' h => simp only [alikeAll_length h]
    | _ => rfl
  | .set t, ht, exc, target, loc, segs, st => by
    simp only [node, agree_same env t (ht.inner (.set t)) exc hi]
    cases h <;> rfl
  | .map o t, ht, exc, target, loc, segs, st => by
    simp only [node, agree_entries env t (ht.inner (.map o t)) exc hf]
    cases h <;> rfl
  | .dict t, ht, exc, target, loc, segs, st => by
    simp only [node, agree_same env _ (ht.inner (.dict t)) exc hi]
    cases h <;> rfl
  | .tuple ts, ht, exc, target, loc, segs, st => by
    simp only [node, agree_tuple env exc hi ts fun u hu => ht.inner (.tuple ts u hu)]
    cases h with
    | arr js js' h => simp only [alikeAll_length h]
    | _ => rfl
  | .variant ts, ht, exc, target, loc, segs, st => by
    simp only [node, alternatives_alike ts (fun u hu => ht.inner (.variant ts u hu)) 0 loc segs st]
  | .cls c, ht, exc, target, loc, segs, st => by
    simp only [node, agree_members env exc hf loc segs (env.members c) fun m hm => ht.inner (.cls c m hm)]
    cases h <;> rfl
  | .uptr t, ht, exc, target, loc, segs, st => by
    simp only [node, node_alike t (ht.inner (.uptr t))]
  | .sptr t, ht, exc, target, loc, segs, st => by
    have ih := node_alike t (ht.inner (.sptr t))
    simp only [node, ih]
    cases h with
    | obj ms ms' h =>
      simp only [refMember]
      rcases alikeFields_find (lit "$ref") h with ⟨h1, h2⟩ | ⟨i, r, r', h1, h2, h3⟩
      · simp only [h1, h2]; rfl
      · simp only [h1, h2, Option.map_some, alike_ref env hr t h3]
    | _ => rfl

theorem alternatives_alike : ∀ (ts : List Ty), (∀ t ∈ ts, Leaves L env t) → ∀ (i : Nat) (loc : Loc) (segs : List Seg) (st : DState),
    alternatives env root j items fields ts i loc segs st = alternatives env root' j' items' fields' ts i loc segs st
  | [], _, _, _, _, _ => by simp [alternatives]
  | t :: ts, ht, i, loc, segs, st => by
    simp only [alternatives, node_alike t (ht t (by simp)), alternatives_alike ts (fun u hu => ht u (by simp [hu]))]
end
end

section
variable (env : Env) (hN : ∀ m n, N m n → ∀ p, L p → desPrim env p (.num m) = desPrim env p (.num n)) {root root' : Json} (hr : DocAlike N root root')
include hN hr

mutual
/-- The DOM readers do the same with both documents. -/
theorem deser_alike : ∀ {j j' : Json}, DocAlike N j j' → ReadAlike L env (deser env root j) (deser env root' j')
  | _, _, .null, t, ht, exc, target, loc, segs, st => by
    simp only [deser]; exact node_alike env hN hr .null .nil .nil t ht exc target loc segs st
  | _, _, .bool b, t, ht, exc, target, loc, segs, st => by
    simp only [deser]; exact node_alike env hN hr (.bool b) .nil .nil t ht exc target loc segs st
  | _, _, .num m n h, t, ht, exc, target, loc, segs, st => by
    simp only [deser]; exact node_alike env hN hr (.num m n h) .nil .nil t ht exc target loc segs st
  | _, _, .str s, t, ht, exc, target, loc, segs, st => by
    simp only [deser]; exact node_alike env hN hr (.str s) .nil .nil t ht exc target loc segs st
  | _, _, .arr js js' h, t, ht, exc, target, loc, segs, st => by
    simp only [deser]; exact node_alike env hN hr (.arr js js' h) (deserItems_alike h) .nil t ht exc target loc segs st
  | _, _, .obj ms ms' h, t, ht, exc, target, loc, segs, st => by
    simp only [deser]; exact node_alike env hN hr (.obj ms ms' h) .nil (deserFields_alike h) t ht exc target loc segs st

theorem deserItems_alike : ∀ {js js' : List Json}, DocAlikeAll N js js' → ReadAlikeAll L env (deserItems env root js) (deserItems env root' js')
  | _, _, .nil => .nil
  | _, _, .cons _ _ _ _ h hs => .cons _ _ _ _ (deser_alike h) (deserItems_alike hs)

theorem deserFields_alike : ∀ {ms ms' : List (Str × Json)}, DocAlikeFields N ms ms' → ReadAlikeFields L env (deserFields env root ms) (deserFields env root' ms')
  | _, _, .nil => .nil
  | _, _, .cons k _ _ _ _ h hs => .cons k _ _ _ _ (deser_alike h) (deserFields_alike hs)
end
end

/-! ## The streaming parser -/

/-- All leaves of the objects that a handler at the beginning of a value fills are of a kind. -/
def FreeHandler (L : Prim → Prop) (env : Env) : Handler → Prop
  | .leaf p _ => L p
  | .vecStart t _ => Leaves L env t
  | .setStart t _ => Leaves L env t
  | .fixStart _ ts _ => ∀ t ∈ ts, Leaves L env t
  | .mapStart _ t _ => Leaves L env t
  | .objStart c _ => ∀ m ∈ env.members c, Leaves L env m.ty
  | _ => True

theorem openP_whole (env : Env) : ∀ (t : Ty), Leaves L env t → ∀ (target : Val) (n : Nat), FreeHandler L env (openP env t target n).1
  | .prim p, h, _, _ => h p .self
  | .vec t, h, _, _ => h.inner (.vec t)
  | .arr k t, h, _, _ => fun u hu => (List.mem_replicate.1 hu).2 ▸ h.inner (.arr k t)
  | .set t, h, _, _ => h.inner (.set t)
  | .map o t, h, _, _ => h.inner (.map o t)
  | .dict t, h, _, _ => h.inner (.dict t)
  | .tuple ts, h, _, _ => fun u hu => h.inner (.tuple ts u hu)
  | .variant _, _, _, _ => trivial
  | .cls c, h, _, _ => by
    rw [openP]
    split
    · exact trivial
    · exact fun m hm => h.inner (.cls c m hm)
  | .uptr t, h, _, n => openP_whole env t (h.inner (.uptr t)) (env.ctor t) n
  | .sptr t, h, _, n => openP_whole env t (h.inner (.sptr t)) (env.ctor t) (n + 1)

/-- Two parsers of a value do the same for types with these leaves. -/
def PAlike (L : Prim → Prop) (env : Env) (f f' : PFn) : Prop := ∀ K h n, FreeHandler L env h → f K h n = f' K h n

/-- The events do the same to all leaves of a kind. -/
def EventAlike (L : Prim → Prop) (env : Env) (e e' : Event) : Prop := (∀ p, L p → leafParse env p e = leafParse env p e') ∧ ∀ t, isToken t e = isToken t e'

/-- Parsers of elements that do the same. -/
inductive PAlikeAll (L : Prim → Prop) (env : Env) : List (Event × PFn) → List (Event × PFn) → Prop
  | nil : PAlikeAll L env [] []
  | cons (e e' : Event) (f f' : PFn) (fs fs' : List (Event × PFn)) : EventAlike L env e e' → PAlike L env f f' → PAlikeAll L env fs fs' →
      PAlikeAll L env ((e, f) :: fs) ((e', f') :: fs')

/-- Parsers of members that do the same. -/
inductive PAlikeFields (L : Prim → Prop) (env : Env) : List (Str × PFn) → List (Str × PFn) → Prop
  | nil : PAlikeFields L env [] []
  | cons (k : Str) (f f' : PFn) (fs fs' : List (Str × PFn)) : PAlike L env f f' → PAlikeFields L env fs fs' → PAlikeFields L env ((k, f) :: fs) ((k, f') :: fs')

section
variable (env : Env) (host : Host)

theorem child_agree {α : Type} (K : List HClass) (c : HClass) (t : Ty) (ht : Leaves L env t) (target : Val) (n : Nat) (outer : Val → Val) {f f' : PFn} (h : PAlike L env f f')
    {k k' : Val → Nat → LRes α} (hk : ∀ v n, k v n = k' v n) : withChild env host K c t target n outer f k = withChild env host K c t target n outer f' k' := by
  have hw := openP_whole env t ht target n
  have : k = k' := funext fun v => funext fun n => hk v n
  subst this
  unfold withChild
  simp only [h K _ _ hw]

theorem direct_whole {t : Ty} (ht : Leaves L env t) {p : Prim} (h : direct t = some p) : L p := by
  cases t with
  | prim q =>
    have : p = q := by
      cases q with
      | int i =>
        simp only [direct] at h
        split at h <;> cases h
        rfl
      | _ => cases h <;> rfl
    subst this
    exact ht p .self
  | _ => cases h

theorem loopVec_agree (K : List HClass) (t : Ty) (ht : Leaves L env t) : ∀ {fs fs' : List (Event × PFn)}, PAlikeAll L env fs fs' → ∀ (vs : List Val) (n : Nat),
    loopVec env host K t fs vs n = loopVec env host K t fs' vs n
  | _, _, .nil, _, _ => rfl
  | _, _, .cons e e' f f' fs fs' he hf hs, vs, n => by
    have ih := loopVec_agree K t ht hs
    unfold loopVec
    cases hd : direct t with
    | some p => simp only [he.1 p (direct_whole env ht hd), ih]
    | none => simp only [he.2 t, child_agree env host K (.parser t) t ht _ _ _ hf fun v n => ih (vs ++ [v]) n]

theorem loopSet_agree (K : List HClass) (t : Ty) (ht : Leaves L env t) : ∀ {fs fs' : List (Event × PFn)}, PAlikeAll L env fs fs' → ∀ (storage vs : List Val) (n : Nat),
    loopSet env host K t fs storage vs n = loopSet env host K t fs' storage vs n
  | _, _, .nil, _, _, _ => rfl
  | _, _, .cons e e' f f' fs fs' he hf hs, storage, vs, n => by
    have ih := loopSet_agree K t ht hs
    unfold loopSet
    cases hd : direct t with
    | some p => simp only [he.1 p (direct_whole env ht hd), ih]
    | none => simp only [he.2 t, child_agree env host K (.parser t) t ht _ _ _ hf fun v n => ih (storage ++ [v]) vs n]

theorem loopFix_agree (K : List HClass) (C : Ty) (ts : List Ty) (ht : ∀ t ∈ ts, Leaves L env t) : ∀ {fs fs' : List (Event × PFn)}, PAlikeAll L env fs fs' →
    ∀ (i : Nat) (vs : List Val) (n : Nat), loopFix env host K C ts fs i vs n = loopFix env host K C ts fs' i vs n
  | _, _, .nil, _, _, _ => rfl
  | _, _, .cons e e' f f' fs fs' he hf hs, i, vs, n => by
    have ih := loopFix_agree K C ts ht hs
    unfold loopFix
    cases hd : ts[i]? with
    | none => rfl
    | some t =>
      simp only [child_agree env host (.fixed C (i + 1) :: K) (.parser t) t (ht t (List.mem_of_getElem? hd)) _ _ _ hf fun v n => ih (i + 1) (vs.set i v) n]

theorem loopMap_agree (K : List HClass) (t : Ty) (ht : Leaves L env t) : ∀ {fs fs' : List (Str × PFn)}, PAlikeFields L env fs fs' → ∀ (kvs : List (Str × Val)) (n : Nat),
    loopMap env host K t fs kvs n = loopMap env host K t fs' kvs n
  | _, _, .nil, _, _ => rfl
  | _, _, .cons k f f' fs fs' hf hs, kvs, n => by
    have ih := loopMap_agree K t ht hs
    unfold loopMap
    exact child_agree env host K (.parser t) t ht _ _ _ hf fun v n => ih _ n

theorem loopObj_agree (K : List HClass) (c : Nat) (hc : ∀ m ∈ env.members c, Leaves L env m.ty) : ∀ {fs fs' : List (Str × PFn)}, PAlikeFields L env fs fs' →
    ∀ (vs : List Val) (n : Nat), loopObj env host K c fs vs n = loopObj env host K c fs' vs n
  | _, _, .nil, _, _ => rfl
  | _, _, .cons k f f' fs fs' hf hs, vs, n => by
    have ih := loopObj_agree K c hc hs
    unfold loopObj
    cases selectMember env host c k with
    | reject => rfl
    | memoryError => rfl
    | member i =>
      cases hm : (env.members c)[i]? with
      | none => simp only [hm]
      | some m =>
        have hmem := hc m (List.mem_of_getElem? hm)
        simp only [hm, child_agree env host K (.optional m.ty) m.ty hmem _ _ _ hf fun v n => ih (vs.set i v) n,
          child_agree env host K (.parser m.ty) m.ty hmem _ _ _ hf fun v n => ih (vs.set i v) n]
end

theorem isToken_num (m n : JsonNum) : ∀ t, isToken t (.num m) = isToken t (.num n)
  | .prim p => by cases p <;> rfl
  | .uptr t => by rw [isToken, isToken, isToken_num m n t]
  | .sptr t => by rw [isToken, isToken, isToken_num m n t]
  | .vec _ | .arr _ _ | .set _ | .map _ _ | .dict _ | .tuple _ | .variant _ | .cls _ => rfl

theorem eagree_num (env : Env) (m n : JsonNum) (h : ∀ p, L p → leafParse env p (.num m) = leafParse env p (.num n)) : EventAlike L env (.num m) (.num n) :=
  ⟨h, isToken_num m n⟩

theorem eagree_self (env : Env) (e : Event) : EventAlike L env e e := ⟨fun _ _ => rfl, fun _ => rfl⟩

theorem scalar_agree (env : Env) {e e' : Event} (he : EventAlike L env e e') : PAlike L env (scalar env e) (scalar env e') := by
  intro K h n hw
  cases h with
  | leaf p v => simp only [scalar, he.1 p hw]
  | _ => rfl

section
variable (env : Env) (hP : ∀ m n, N m n → ∀ p, L p → leafParse env p (.num m) = leafParse env p (.num n)) (host : Host)
include hP

theorem first_alike : ∀ {j j' : Json}, DocAlike N j j' → EventAlike L env (first j) (first j')
  | _, _, .null => eagree_self env _
  | _, _, .bool _ => eagree_self env _
  | _, _, .num m n h => eagree_num env m n (hP m n h)
  | _, _, .str _ => eagree_self env _
  | _, _, .arr _ _ _ => eagree_self env _
  | _, _, .obj _ _ _ => eagree_self env _

mutual
/-- The parser does the same with both documents. -/
theorem pval_alike : ∀ {j j' : Json}, DocAlike N j j' → PAlike L env (pval env host j) (pval env host j')
  | _, _, .null => fun _ _ _ _ => rfl
  | _, _, .bool b => fun _ _ _ _ => rfl
  | _, _, .num m n h => by simp only [pval]; exact scalar_agree env (eagree_num env m n (hP m n h))
  | _, _, .str s => fun _ _ _ _ => rfl
  | _, _, .arr js js' h => fun K hd n hw => by
    have ih := pitems_alike h
    simp only [pval]
    cases hd with
    | vecStart t vs => simp only [arrayFn, loopVec_agree env host _ t hw ih]
    | setStart t vs => simp only [arrayFn, loopSet_agree env host _ t hw ih]
    | fixStart C ts vs => simp only [arrayFn, loopFix_agree env host _ C ts hw ih]
    | _ => rfl
  | _, _, .obj ms ms' h => fun K hd n hw => by
    have ih := pfields_alike h
    simp only [pval]
    cases hd with
    | mapStart C t kvs => simp only [objectFn, loopMap_agree env host _ t hw ih]
    | objStart c vs => simp only [objectFn, loopObj_agree env host _ c hw ih]
    | _ => rfl

theorem pitems_alike : ∀ {js js' : List Json}, DocAlikeAll N js js' → PAlikeAll L env (pitems env host js) (pitems env host js')
  | _, _, .nil => .nil
  | _, _, .cons _ _ _ _ h hs => .cons _ _ _ _ _ _ (first_alike env hP h) (pval_alike h) (pitems_alike hs)

theorem pfields_alike : ∀ {ms ms' : List (Str × Json)}, DocAlikeFields N ms ms' → PAlikeFields L env (pfields env host ms) (pfields env host ms')
  | _, _, .nil => .nil
  | _, _, .cons k _ _ _ _ h hs => .cons k _ _ _ _ (pval_alike h) (pfields_alike hs)
end

theorem parse_alike (t : Ty) (ht : Leaves L env t) {j j' : Json} (h : DocAlike N j j') (target : Val) (n : Nat) :
    parseBool env host t (.document j) target n = parseBool env host t (.document j') target n := by
  rw [parseBool_document, parseBool_document]
  have hw := openP_whole env t ht target n
  have := pval_alike env hP host h
  simp only [this [] _ _ hw]
end

end Verif.Numerals
