import Verif.Rename
import Verif.Replace

/-!
# Parts of a document

What the serializer makes of a part of a value, compared with what it makes of the part on its own. A `Tmpl` is a document
in which the references are left open: the place a reference points to is given from the root of the part.
`fill place` puts in the references, for a part that begins at `place`.
-/

namespace Verif.Core
open Verif.Numeric

/-- A document with open references. -/
inductive Tmpl
  | leaf (j : Json)
  | ref (segs : List Seg)
  | arr (ts : List Tmpl)
  | obj (ms : List (Str × Tmpl))

mutual
/-- The document of a part that begins at `place`. -/
def Tmpl.fill (place : List Seg) : Tmpl → Json
  | .leaf j => j
  | .ref segs => .obj [(lit "$ref", .str (pathStr (segs ++ place)))]
  | .arr ts => .arr (Tmpl.fillAll place ts)
  | .obj ms => .obj (Tmpl.fillFields place ms)

/-- `fill` for the elements of an array. -/
def Tmpl.fillAll (place : List Seg) : List Tmpl → List Json
  | [] => []
  | T :: Ts => T.fill place :: Tmpl.fillAll place Ts

/-- `fill` for the members of an object. -/
def Tmpl.fillFields (place : List Seg) : List (Str × Tmpl) → List (Str × Json)
  | [] => []
  | (k, T) :: Ts => (k, T.fill place) :: Tmpl.fillFields place Ts
end

mutual
/-- The number of references. -/
def Tmpl.refs : Tmpl → Nat
  | .leaf _ => 0
  | .ref _ => 1
  | .arr ts => Tmpl.refsAll ts
  | .obj ms => Tmpl.refsFields ms

/-- `refs` for the elements of an array. -/
def Tmpl.refsAll : List Tmpl → Nat
  | [] => 0
  | T :: Ts => T.refs + Tmpl.refsAll Ts

/-- `refs` for the members of an object. -/
def Tmpl.refsFields : List (Str × Tmpl) → Nat
  | [] => 0
  | (_, T) :: Ts => T.refs + Tmpl.refsFields Ts
end

mutual
theorem Tmpl.fill_closed (p q : List Seg) : ∀ T : Tmpl, T.refs = 0 → T.fill p = T.fill q
  | .leaf _, _ => by simp [Tmpl.fill]
  | .ref _, h => by simp [Tmpl.refs] at h
  | .arr ts, h => by simp only [Tmpl.fill]; rw [Tmpl.fillAll_closed p q ts (by simpa [Tmpl.refs] using h)]
  | .obj ms, h => by simp only [Tmpl.fill]; rw [Tmpl.fillFields_closed p q ms (by simpa [Tmpl.refs] using h)]

theorem Tmpl.fillAll_closed (p q : List Seg) : ∀ Ts : List Tmpl, Tmpl.refsAll Ts = 0 → Tmpl.fillAll p Ts = Tmpl.fillAll q Ts
  | [], _ => by simp [Tmpl.fillAll]
  | T :: Ts, h => by
      simp only [Tmpl.refsAll, Nat.add_eq_zero_iff] at h
      simp only [Tmpl.fillAll]
      rw [Tmpl.fill_closed p q T h.1, Tmpl.fillAll_closed p q Ts h.2]

theorem Tmpl.fillFields_closed (p q : List Seg) : ∀ Ts : List (Str × Tmpl), Tmpl.refsFields Ts = 0 → Tmpl.fillFields p Ts = Tmpl.fillFields q Ts
  | [], _ => by simp [Tmpl.fillFields]
  | (_, T) :: Ts, h => by
      simp only [Tmpl.refsFields, Nat.add_eq_zero_iff] at h
      simp only [Tmpl.fillFields]
      rw [Tmpl.fill_closed p q T h.1, Tmpl.fillFields_closed p q Ts h.2]
end

/-! ## Two runs side by side -/

/-- The second table has the same entries for the addresses `A`, moved to `place`. -/
def Shifted (A : Nat → Prop) (place : List Seg) (σ σ' : STab) : Prop := ∀ a, A a → σ'.get a = (σ.get a).map (· ++ place)

theorem Shifted.put {A : Nat → Prop} {place : List Seg} {σ σ' : STab} (h : Shifted A place σ σ') (a : Nat) (ha : A a) (segs : List Seg) :
    Shifted A place (σ.put a segs) (σ'.put a (segs ++ place)) := by
  intro b hb
  by_cases e : a = b
  · subst e
    have := h a ha
    unfold STab.get at this
    unfold STab.put STab.get
    cases hl : σ.lookup a with
    | none => rw [hl] at this; rw [show σ'.lookup a = none from this]; simp
    | some s => rw [hl] at this; rw [show σ'.lookup a = some (s ++ place) from this]; simp [hl, this]
  · rw [put_get_ne _ _ _ e, put_get_ne _ _ _ e]
    exact h b hb

/-- The results of two runs: the same template filled in twice, without references if there are no shared pointers (`n = 0`). -/
inductive Two {α β : Type} (A : Nat → Prop) (place : List Seg) (fill : List Seg → β → α) (refs : β → Nat) (n : Nat) : SRes α → SRes α → Prop
  | ub : Two A place fill refs n .ub .ub
  | fail (σ σ' : STab) (h : Shifted A place σ σ') : Two A place fill refs n (.done σ none) (.done σ' none)
  | ok (σ σ' : STab) (h : Shifted A place σ σ') (T : β) (hr : n = 0 → refs T = 0) :
      Two A place fill refs n (.done σ (some (fill [] T))) (.done σ' (some (fill place T)))

abbrev TwoJ (A : Nat → Prop) (place : List Seg) (n : Nat) := Two A place (fun p T => Tmpl.fill p T) Tmpl.refs n
abbrev TwoL (A : Nat → Prop) (place : List Seg) (n : Nat) := Two A place (fun p T => Tmpl.fillAll p T) Tmpl.refsAll n
abbrev TwoF (A : Nat → Prop) (place : List Seg) (n : Nat) := Two A place (fun p T => Tmpl.fillFields p T) Tmpl.refsFields n

theorem TwoL.arr {A : Nat → Prop} {place : List Seg} {n : Nat} {r r' : SRes (List Json)} (h : TwoL A place n r r') : TwoJ A place n (r.map .arr) (r'.map .arr) := by
  cases h with
  | ub => exact .ub
  | fail σ σ' h => exact .fail _ _ h
  | ok σ σ' h T hr =>
    have := Two.ok (fill := fun p T => Tmpl.fill p T) (refs := Tmpl.refs) (n := n) σ σ' h (.arr T) (by simpa [Tmpl.refs] using hr)
    simpa [SRes.map, Tmpl.fill] using this

theorem TwoF.obj {A : Nat → Prop} {place : List Seg} {n : Nat} {r r' : SRes (List (Str × Json))} (h : TwoF A place n r r') : TwoJ A place n (r.map .obj) (r'.map .obj) := by
  cases h with
  | ub => exact .ub
  | fail σ σ' h => exact .fail _ _ h
  | ok σ σ' h T hr =>
    have := Two.ok (fill := fun p T => Tmpl.fill p T) (refs := Tmpl.refs) (n := n) σ σ' h (.obj T) (by simpa [Tmpl.refs] using hr)
    simpa [SRes.map, Tmpl.fill] using this

theorem TwoL.cons {A : Nat → Prop} {place : List Seg} {n m : Nat} {r r' : SRes (List Json)} (h : TwoL A place n r r') (T : Tmpl) (hT : m = 0 → T.refs = 0) :
    TwoL A place (m + n) (r.map (T.fill [] :: ·)) (r'.map (T.fill place :: ·)) := by
  cases h with
  | ub => exact .ub
  | fail σ σ' h => exact .fail _ _ h
  | ok σ σ' h Ts hr =>
    have := Two.ok (fill := fun p T => Tmpl.fillAll p T) (refs := Tmpl.refsAll) (n := m + n) σ σ' h (T :: Ts) (by simp only [Tmpl.refsAll]; intro e; have := hT (by omega); have := hr (by omega); omega)
    simpa [SRes.map, Tmpl.fillAll] using this

theorem TwoF.cons {A : Nat → Prop} {place : List Seg} {n m : Nat} {r r' : SRes (List (Str × Json))} (h : TwoF A place n r r') (k : Str) (T : Tmpl) (hT : m = 0 → T.refs = 0) :
    TwoF A place (m + n) (r.map ((k, T.fill []) :: ·)) (r'.map ((k, T.fill place) :: ·)) := by
  cases h with
  | ub => exact .ub
  | fail σ σ' h => exact .fail _ _ h
  | ok σ σ' h Ts hr =>
    have := Two.ok (fill := fun p T => Tmpl.fillFields p T) (refs := Tmpl.refsFields) (n := m + n) σ σ' h ((k, T) :: Ts) (by simp only [Tmpl.refsFields]; intro e; have := hT (by omega); have := hr (by omega); omega)
    simpa [SRes.map, Tmpl.fillFields] using this

theorem Two.le {α β : Type} {A : Nat → Prop} {place : List Seg} {fill : List Seg → β → α} {refs : β → Nat} {n m : Nat} {r r' : SRes α}
    (h : Two A place fill refs n r r') (hnm : m = 0 → n = 0) : Two A place fill refs m r r' := by
  cases h with
  | ub => exact .ub
  | fail σ σ' h => exact .fail _ _ h
  | ok σ σ' h T hr => exact .ok _ _ h T fun e => hr (hnm e)

theorem addrsVals_iterate_nil (env : Env) (o : Bool) (segs : List Seg) (kvs : List (Str × Val)) (h : addrsVals kvs = []) : addrsVals (iterate env o segs kvs) = [] := by
  cases he : addrsVals (iterate env o segs kvs) with
  | nil => rfl
  | cons a l =>
    have : a ∈ addrsVals (iterate env o segs kvs) := by rw [he]; simp
    obtain ⟨p, hp, ha⟩ := (mem_addrsVals _ _).1 this
    have : a ∈ addrsVals kvs := (mem_addrsVals _ _).2 ⟨p, of_iterate hp, ha⟩
    rw [h] at this
    cases this

theorem two_leaf {A : Nat → Prop} {place : List Seg} {n : Nat} {σ σ' : STab} (h : Shifted A place σ σ') (j : Json) : TwoJ A place n (.done σ (some j)) (.done σ' (some j)) := by
  have := Two.ok (fill := fun p T => Tmpl.fill p T) (refs := Tmpl.refs) (n := n) σ σ' h (.leaf j) (by simp [Tmpl.refs])
  simpa [Tmpl.fill] using this

section
variable (env : Env) (A : Nat → Prop) (place : List Seg) (hord : ∀ segs ks, env.order (segs ++ place) ks = env.order segs ks)

/-- What is to be shown for one value. -/
def SerTwo (v : Val) : Prop := ∀ t segs σ σ', (∀ a ∈ addrs v, A a) → Shifted A place σ σ' →
  TwoJ A place (addrs v).length (ser env v t segs σ) (ser env v t (segs ++ place) σ')

theorem serEntries_two (t : Ty) (kvs : List (Str × Val)) (h : ∀ p ∈ kvs, SerTwo env A place p.2) (segs : List Seg) (σ σ' : STab)
    (hA : ∀ a ∈ addrsVals kvs, A a) (hs : Shifted A place σ σ') :
    TwoF A place (addrsVals kvs).length (serEntries (kvs.map fun p => (p.1, ser env p.2 t)) segs σ) (serEntries (kvs.map fun p => (p.1, ser env p.2 t)) (segs ++ place) σ') := by
  induction kvs generalizing σ σ' with
  | nil => exact .ok _ _ hs [] (by simp [Tmpl.refsFields])
  | cons p kvs ih =>
    obtain ⟨k, v⟩ := p
    simp only [addrsVals, List.mem_append] at hA
    have hv := h (k, v) (by simp) t (Seg.name k :: segs) σ σ' (fun a ha => hA a (.inl ha)) hs
    simp only [List.map_cons, serEntries, addrsVals, List.length_append]
    simp only [List.cons_append] at hv
    revert hv
    generalize ser env v t (Seg.name k :: segs) σ = r
    generalize ser env v t (Seg.name k :: (segs ++ place)) σ' = r'
    rintro (_ | ⟨τ, τ', h1⟩ | ⟨τ, τ', h1, T, hT⟩)
    · exact .ub
    · exact .fail _ _ h1
    · exact TwoF.cons (ih (fun p hp => h p (by simp [hp])) τ τ' (fun a ha => hA a (.inr ha)) h1) k T hT

theorem serItems_two (vs : List Val) (h : ∀ v ∈ vs, SerTwo env A place v) (ts : List Ty) (k : Nat) (segs : List Seg) (σ σ' : STab)
    (hA : ∀ a ∈ addrsAll vs, A a) (hs : Shifted A place σ σ') :
    TwoL A place (addrsAll vs).length (serItems env vs ts k segs σ) (serItems env vs ts k (segs ++ place) σ') := by
  induction vs generalizing ts k σ σ' with
  | nil =>
    cases ts with
    | nil => simp only [serItems]; exact .ok _ _ hs [] (by simp [Tmpl.refsAll])
    | cons => simp only [serItems]; exact .ub
  | cons v vs ih =>
    cases ts with
    | nil => simp only [serItems]; exact .ub
    | cons t ts =>
      simp only [addrsAll, List.mem_append] at hA
      have hv := h v (by simp) t (.index k :: segs) σ σ' (fun a ha => hA a (.inl ha)) hs
      simp only [serItems, addrsAll, List.length_append]
      simp only [List.cons_append] at hv
      revert hv
      generalize ser env v t (.index k :: segs) σ = r
      generalize ser env v t (.index k :: (segs ++ place)) σ' = r'
      rintro (_ | ⟨τ, τ', h1⟩ | ⟨τ, τ', h1, T, hT⟩)
      · exact .ub
      · exact .fail _ _ h1
      · exact TwoL.cons (ih (fun p hp => h p (by simp [hp])) ts (k + 1) τ τ' (fun a ha => hA a (.inr ha)) h1) T hT

theorem serSet_two (vs : List Val) (h : ∀ v ∈ vs, SerTwo env A place v) (t : Ty) (segs : List Seg) (σ σ' : STab)
    (hA : ∀ a ∈ addrsAll vs, A a) (hs : Shifted A place σ σ') :
    TwoL A place (addrsAll vs).length (serSet env vs t segs σ) (serSet env vs t (segs ++ place) σ') := by
  induction vs generalizing σ σ' with
  | nil => simp only [serSet]; exact .ok _ _ hs [] (by simp [Tmpl.refsAll])
  | cons v vs ih =>
    simp only [addrsAll, List.mem_append] at hA
    have hv := h v (by simp) t segs σ σ' (fun a ha => hA a (.inl ha)) hs
    simp only [serSet, addrsAll, List.length_append]
    revert hv
    generalize ser env v t segs σ = r
    generalize ser env v t (segs ++ place) σ' = r'
    rintro (_ | ⟨τ, τ', h1⟩ | ⟨τ, τ', h1, T, hT⟩)
    · exact .ub
    · exact .fail _ _ h1
    · exact TwoL.cons (ih (fun p hp => h p (by simp [hp])) τ τ' (fun a ha => hA a (.inr ha)) h1) T hT

theorem serMembers_two (vs : List Val) (h : ∀ v ∈ vs, SerTwo env A place v ∧ ∀ w, v = .present w → SerTwo env A place w) (ms : List Member) (segs : List Seg) (σ σ' : STab)
    (hA : ∀ a ∈ addrsAll vs, A a) (hs : Shifted A place σ σ') :
    TwoF A place (addrsAll vs).length (serMembers env vs ms segs σ) (serMembers env vs ms (segs ++ place) σ') := by
  induction vs generalizing ms σ σ' with
  | nil =>
    cases ms with
    | nil => simp only [serMembers]; exact .ok _ _ hs [] (by simp [Tmpl.refsFields])
    | cons => simp only [serMembers]; exact .ub
  | cons v vs ih =>
    have ih := ih (fun p hp => h p (by simp [hp]))
    simp only [addrsAll, List.mem_append] at hA
    cases ms with
    | nil => simp only [serMembers]; exact .ub
    | cons m ms =>
      have step : ∀ w, SerTwo env A place w → addrs w = addrs v → TwoF A place (addrsAll (v :: vs)).length (match ser env w m.ty (Seg.name m.name :: segs) σ with
            | .ub => .ub
            | .done σ' none => serMembers env vs ms segs σ'
            | .done σ' (some j) => (serMembers env vs ms segs σ').map ((m.name, j) :: ·))
          (match ser env w m.ty (Seg.name m.name :: (segs ++ place)) σ' with
            | .ub => .ub
            | .done σ' none => serMembers env vs ms (segs ++ place) σ'
            | .done σ' (some j) => (serMembers env vs ms (segs ++ place) σ').map ((m.name, j) :: ·)) := by
        intro w hw he
        have hv := hw m.ty (Seg.name m.name :: segs) σ σ' (fun a ha => hA a (.inl (he ▸ ha))) hs
        simp only [addrsAll, List.length_append]
        rw [he] at hv
        simp only [List.cons_append] at hv
        revert hv
        generalize ser env w m.ty (Seg.name m.name :: segs) σ = r
        generalize ser env w m.ty (Seg.name m.name :: (segs ++ place)) σ' = r'
        rintro (_ | ⟨τ, τ', h1⟩ | ⟨τ, τ', h1, T, hT⟩)
        · exact .ub
        · exact (ih ms τ τ' (fun a ha => hA a (.inr ha)) h1).le (by omega)
        · exact TwoF.cons (ih ms τ τ' (fun a ha => hA a (.inr ha)) h1) m.name T hT
      rw [serMembers.eq_def, serMembers.eq_def env (v :: vs) (m :: ms) (segs ++ place)]
      obtain ⟨name, kind, ty⟩ := m
      cases kind with
      | optional =>
        cases v with
        | absent => exact (ih ms σ σ' (fun a ha => hA a (.inr ha)) hs).le (by simp [addrsAll])
        | present w => exact step w ((h _ (by simp)).2 w rfl) (by simp [addrs])
        | _ => exact .ub
      | required => exact step v (h _ (by simp)).1 rfl
      | default => exact step v (h _ (by simp)).1 rfl

include hord in
theorem iterate_place {α : Type} (o : Bool) (segs : List Seg) (kvs : List (Str × α)) : iterate env o (segs ++ place) kvs = iterate env o segs kvs := by
  unfold iterate
  rw [hord]

include hord in
theorem ser_two : ∀ v, SerTwo env A place v := by
  intro v
  induction v using Val.strong with
  | _ v ih =>
    intro t segs σ σ' hA hs
    have hv : ∀ vs : List Val, sizeOf vs < sizeOf v → ∀ w ∈ vs, SerTwo env A place w := fun vs h w hw => ih w (Nat.lt_trans (mem_size hw) h)
    have hkv : ∀ kvs : List (Str × Val), sizeOf kvs < sizeOf v → ∀ p ∈ kvs, SerTwo env A place p.2 := fun kvs h p hp => ih p.2 (Nat.lt_trans (mem_size_kv hp) h)
    cases v with
    | prim p =>
      cases t with
      | prim k =>
        simp only [ser]
        cases serPrim env k p with
        | ub => exact .ub
        | fail => exact .fail _ _ hs
        | ok j => exact two_leaf hs j
      | _ => exact .ub
    | seq vs =>
      cases t with
      | vec t => simp only [ser]; exact (serItems_two env A place vs (hv vs (by simp +arith)) _ _ _ _ _ (by simpa [addrs] using hA) hs).arr
      | _ => exact .ub
    | tup vs =>
      cases t with
      | arr n t =>
        simp only [ser]
        split
        · exact (serItems_two env A place vs (hv vs (by simp +arith)) _ _ _ _ _ (by simpa [addrs] using hA) hs).arr
        · exact .ub
      | tuple ts => simp only [ser]; exact (serItems_two env A place vs (hv vs (by simp +arith)) _ _ _ _ _ (by simpa [addrs] using hA) hs).arr
      | _ => exact .ub
    | set vs =>
      cases t with
      | set t => simp only [ser]; exact (serSet_two env A place vs (hv vs (by simp +arith)) _ _ _ _ (by simpa [addrs] using hA) hs).arr
      | _ => exact .ub
    | map kvs =>
      cases t with
      | map o t =>
        simp only [ser, serVals_eq, iterate_place env place hord]
        rw [iterate_map (g := fun p => ser env p.2 t)]
        refine TwoF.obj (Two.le (serEntries_two env A place t _ (fun p hp => hkv kvs (by simp +arith) p (of_iterate hp)) _ _ _ (fun a ha => ?_) hs) ?_)
        · obtain ⟨p, hp, ha⟩ := (mem_addrsVals _ _).1 ha
          exact hA a (by simpa [addrs] using (mem_addrsVals _ _).2 ⟨p, of_iterate hp, ha⟩)
        · intro e
          rw [addrsVals_iterate_nil env o segs kvs (by simpa [addrs] using e)]
          rfl
      | _ => exact .ub
    | dict kvs =>
      cases t with
      | dict t =>
        simp only [ser, serVals_eq]
        exact (serEntries_two env A place t _ (hkv kvs (by simp +arith)) _ _ _ (by simpa [addrs] using hA) hs).obj
      | _ => exact .ub
    | alt i v =>
      cases t with
      | variant ts =>
        simp only [ser]
        cases ts[i]? with
        | none => exact .ub
        | some t => exact ih v (by simp +arith) t segs σ σ' (by simpa [addrs] using hA) hs
      | _ => exact .ub
    | obj vs =>
      cases t with
      | cls c =>
        simp only [ser]
        exact (serMembers_two env A place vs (fun w hw => ⟨hv vs (by simp +arith) w hw, fun u hu => ih u (by have := mem_size hw; subst hu; simp at this ⊢; omega)⟩) _ _ _ _ (by simpa [addrs] using hA) hs).obj
      | _ => exact .ub
    | uptr v =>
      cases t with
      | uptr t => simp only [ser]; exact ih v (by simp +arith) t segs σ σ' (by simpa [addrs] using hA) hs
      | _ => exact .ub
    | sptr a v =>
      cases t with
      | sptr t =>
        have ha : A a := hA a (by simp [addrs])
        simp only [ser, hs a ha]
        cases σ.get a with
        | some s =>
          have := Two.ok (A := A) (place := place) (fill := fun p T => Tmpl.fill p T) (refs := Tmpl.refs) (n := (addrs (.sptr a v)).length) σ σ' hs (.ref s) (by simp [addrs])
          simpa [Tmpl.fill] using this
        | none =>
          have hv := ih v (by simp +arith) t segs σ σ' (fun b hb => hA b (by simp [addrs, hb])) hs
          simp only [Option.map_none]
          revert hv
          generalize ser env v t segs σ = r
          generalize ser env v t (segs ++ place) σ' = r'
          rintro (_ | ⟨τ, τ', h1⟩ | ⟨τ, τ', h1, T, hT⟩)
          · exact .ub
          · exact .fail _ _ h1
          · exact .ok _ _ (h1.put a ha segs) T (by simp [addrs])
      | _ => exact .ub
    | _ => cases t <;> exact .ub

end

/-! ## Entries for other objects stay -/

/-- The table is the same except at the addresses `A`. -/
def KeepsOther {α : Type} (A : List Nat) (σ : STab) : SRes α → Prop
  | .ub => True
  | .done σ' _ => ∀ a, a ∉ A → σ'.get a = σ.get a

theorem KeepsOther.map {α β : Type} {A : List Nat} {σ : STab} {r : SRes α} (h : KeepsOther A σ r) (f : α → β) : KeepsOther A σ (r.map f) := by
  cases r <;> exact h

theorem KeepsOther.trans {α : Type} {A B C : List Nat} {σ τ : STab} {r : SRes α} (hσ : ∀ a, a ∉ A → τ.get a = σ.get a) (h : KeepsOther B τ r)
    (hA : ∀ a, a ∉ C → a ∉ A) (hB : ∀ a, a ∉ C → a ∉ B) : KeepsOther C σ r := by
  cases r with
  | ub => trivial
  | done σ' x => exact fun a ha => (h a (hB a ha)).trans (hσ a (hA a ha))

section
variable (env : Env)

/-- What is to be shown for one value. -/
def SerKeepsOther (v : Val) : Prop := ∀ t segs σ, KeepsOther (addrs v) σ (ser env v t segs σ)

theorem serEntries_keeps (t : Ty) (kvs : List (Str × Val)) (h : ∀ p ∈ kvs, SerKeepsOther env p.2) (segs : List Seg) (σ : STab) :
    KeepsOther (addrsVals kvs) σ (serEntries (kvs.map fun p => (p.1, ser env p.2 t)) segs σ) := by
  induction kvs generalizing σ with
  | nil => exact fun _ _ => rfl
  | cons p kvs ih =>
    obtain ⟨k, v⟩ := p
    have hv := h (k, v) (by simp) t (Seg.name k :: segs) σ
    simp only [List.map_cons, serEntries, addrsVals]
    revert hv
    generalize ser env v t (Seg.name k :: segs) σ = r
    intro hv
    cases r with
    | ub => trivial
    | done τ x =>
      cases x with
      | none => exact fun a ha => hv a (by simp only [List.mem_append, not_or] at ha; exact ha.1)
      | some j =>
        exact (KeepsOther.trans hv (ih (fun p hp => h p (by simp [hp])) τ) (fun a ha => by simp only [List.mem_append, not_or] at ha; exact ha.1)
          (fun a ha => by simp only [List.mem_append, not_or] at ha; exact ha.2)).map _

theorem serItems_keeps (vs : List Val) (h : ∀ v ∈ vs, SerKeepsOther env v) (ts : List Ty) (k : Nat) (segs : List Seg) (σ : STab) :
    KeepsOther (addrsAll vs) σ (serItems env vs ts k segs σ) := by
  induction vs generalizing ts k σ with
  | nil =>
    cases ts with
    | nil => simp only [serItems]; exact fun _ _ => rfl
    | cons => simp only [serItems]; trivial
  | cons v vs ih =>
    cases ts with
    | nil => simp only [serItems]; trivial
    | cons t ts =>
      have hv := h v (by simp) t (.index k :: segs) σ
      simp only [serItems, addrsAll]
      revert hv
      generalize ser env v t (.index k :: segs) σ = r
      intro hv
      cases r with
      | ub => trivial
      | done τ x =>
        cases x with
        | none => exact fun a ha => hv a (by simp only [List.mem_append, not_or] at ha; exact ha.1)
        | some j =>
          exact (KeepsOther.trans hv (ih (fun p hp => h p (by simp [hp])) ts (k + 1) τ) (fun a ha => by simp only [List.mem_append, not_or] at ha; exact ha.1)
            (fun a ha => by simp only [List.mem_append, not_or] at ha; exact ha.2)).map _

theorem serSet_keeps (vs : List Val) (h : ∀ v ∈ vs, SerKeepsOther env v) (t : Ty) (segs : List Seg) (σ : STab) :
    KeepsOther (addrsAll vs) σ (serSet env vs t segs σ) := by
  induction vs generalizing σ with
  | nil => simp only [serSet]; exact fun _ _ => rfl
  | cons v vs ih =>
    have hv := h v (by simp) t segs σ
    simp only [serSet, addrsAll]
    revert hv
    generalize ser env v t segs σ = r
    intro hv
    cases r with
    | ub => trivial
    | done τ x =>
      cases x with
      | none => exact fun a ha => hv a (by simp only [List.mem_append, not_or] at ha; exact ha.1)
      | some j =>
        exact (KeepsOther.trans hv (ih (fun p hp => h p (by simp [hp])) τ) (fun a ha => by simp only [List.mem_append, not_or] at ha; exact ha.1)
          (fun a ha => by simp only [List.mem_append, not_or] at ha; exact ha.2)).map _

theorem serMembers_keeps (vs : List Val) (h : ∀ v ∈ vs, SerKeepsOther env v ∧ ∀ w, v = .present w → SerKeepsOther env w) (ms : List Member) (segs : List Seg) (σ : STab) :
    KeepsOther (addrsAll vs) σ (serMembers env vs ms segs σ) := by
  induction vs generalizing ms σ with
  | nil =>
    cases ms with
    | nil => simp only [serMembers]; exact fun _ _ => rfl
    | cons => simp only [serMembers]; trivial
  | cons v vs ih =>
    have ih := ih (fun p hp => h p (by simp [hp]))
    cases ms with
    | nil => simp only [serMembers]; trivial
    | cons m ms =>
      have step : ∀ w, SerKeepsOther env w → addrs w = addrs v → KeepsOther (addrsAll (v :: vs)) σ (match ser env w m.ty (Seg.name m.name :: segs) σ with
            | .ub => .ub
            | .done σ' none => serMembers env vs ms segs σ'
            | .done σ' (some j) => (serMembers env vs ms segs σ').map ((m.name, j) :: ·)) := by
        intro w hw he
        have hv := hw m.ty (Seg.name m.name :: segs) σ
        rw [he] at hv
        simp only [addrsAll]
        revert hv
        generalize ser env w m.ty (Seg.name m.name :: segs) σ = r
        intro hv
        cases r with
        | ub => trivial
        | done τ x =>
          have := KeepsOther.trans (C := addrs v ++ addrsAll vs) hv (ih ms τ) (fun a ha => by simp only [List.mem_append, not_or] at ha; exact ha.1)
            (fun a ha => by simp only [List.mem_append, not_or] at ha; exact ha.2)
          cases x with
          | none => exact this
          | some j => exact this.map _
      rw [serMembers.eq_def]
      obtain ⟨name, kind, ty⟩ := m
      cases kind with
      | optional =>
        cases v with
        | absent =>
          have := ih ms σ
          simpa [addrsAll, addrs] using this
        | present w => exact step w ((h _ (by simp)).2 w rfl) (by simp [addrs])
        | _ => trivial
      | required => exact step v (h _ (by simp)).1 rfl
      | default => exact step v (h _ (by simp)).1 rfl

theorem ser_keeps : ∀ v, SerKeepsOther env v := by
  intro v
  induction v using Val.strong with
  | _ v ih =>
    intro t segs σ
    have hv : ∀ vs : List Val, sizeOf vs < sizeOf v → ∀ w ∈ vs, SerKeepsOther env w := fun vs h w hw => ih w (Nat.lt_trans (mem_size hw) h)
    have hkv : ∀ kvs : List (Str × Val), sizeOf kvs < sizeOf v → ∀ p ∈ kvs, SerKeepsOther env p.2 := fun kvs h p hp => ih p.2 (Nat.lt_trans (mem_size_kv hp) h)
    cases v with
    | prim p =>
      cases t with
      | prim k =>
        simp only [ser]
        cases serPrim env k p with
        | ub => trivial
        | fail => exact fun _ _ => rfl
        | ok j => exact fun _ _ => rfl
      | _ => trivial
    | seq vs =>
      cases t with
      | vec t => simp only [ser, addrs]; exact (serItems_keeps env vs (hv vs (by simp +arith)) _ _ _ _).map _
      | _ => trivial
    | tup vs =>
      cases t with
      | arr n t =>
        simp only [ser, addrs]
        split
        · exact (serItems_keeps env vs (hv vs (by simp +arith)) _ _ _ _).map _
        · trivial
      | tuple ts => simp only [ser, addrs]; exact (serItems_keeps env vs (hv vs (by simp +arith)) _ _ _ _).map _
      | _ => trivial
    | set vs =>
      cases t with
      | set t => simp only [ser, addrs]; exact (serSet_keeps env vs (hv vs (by simp +arith)) _ _ _).map _
      | _ => trivial
    | map kvs =>
      cases t with
      | map o t =>
        simp only [ser, serVals_eq, addrs]
        rw [iterate_map (g := fun p => ser env p.2 t)]
        refine (KeepsOther.trans (fun _ _ => rfl) (serEntries_keeps env t _ (fun p hp => hkv kvs (by simp +arith) p (of_iterate hp)) segs σ) (A := []) (fun _ _ => by simp) fun a ha hb => ?_).map _
        obtain ⟨p, hp, hb⟩ := (mem_addrsVals _ _).1 hb
        exact ha ((mem_addrsVals _ _).2 ⟨p, of_iterate hp, hb⟩)
      | _ => trivial
    | dict kvs =>
      cases t with
      | dict t =>
        simp only [ser, serVals_eq, addrs]
        exact (serEntries_keeps env t _ (hkv kvs (by simp +arith)) _ _).map _
      | _ => trivial
    | alt i v =>
      cases t with
      | variant ts =>
        simp only [ser, addrs]
        cases ts[i]? with
        | none => trivial
        | some t => exact ih v (by simp +arith) t segs σ
      | _ => trivial
    | obj vs =>
      cases t with
      | cls c =>
        simp only [ser, addrs]
        exact (serMembers_keeps env vs (fun w hw => ⟨hv vs (by simp +arith) w hw, fun u hu => ih u (by have := mem_size hw; subst hu; simp at this ⊢; omega)⟩) _ _ _).map _
      | _ => trivial
    | uptr v =>
      cases t with
      | uptr t => simp only [ser, addrs]; exact ih v (by simp +arith) t segs σ
      | _ => trivial
    | sptr a v =>
      cases t with
      | sptr t =>
        simp only [ser, addrs]
        cases σ.get a with
        | some s => exact fun _ _ => rfl
        | none =>
          have hv := ih v (by simp +arith) t segs σ
          revert hv
          generalize ser env v t segs σ = r
          intro hv
          cases r with
          | ub => trivial
          | done τ x =>
            cases x with
            | none => exact fun b hb => hv b (by simp only [List.mem_cons, not_or] at hb; exact hb.2)
            | some j =>
              intro b hb
              simp only [List.mem_cons, not_or] at hb
              rw [put_get_ne _ _ _ (fun e => hb.1 e.symm)]
              exact hv b hb.2
      | _ => trivial
    | _ => cases t <;> trivial

end

end Verif.Core
