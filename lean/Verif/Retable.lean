import Verif.Deserialize
import Verif.Write
import Mathlib.Data.List.Nodup

/-!
# Other tables of names for enumerations and other classes with the same members (C124, C125)

`re f t`: the type `t` with the class `f.cls c` in place of the class `c` and the table `f.tab table` in place of the table of names of every enumeration (enum_utility.hpp:65-66), at any depth. If the search finds
the same in both tables, writing and reading are the same, including the table of references.
-/

set_option linter.unusedSectionVars false

namespace Verif.Retable
open Verif.Core Verif.EnumConv

theorem enumValue_perm {table table' : Table} (h : table.Perm table') (hn : (table.map (·.2)).Nodup) (s : Str) : enumValue table s = enumValue table' s := by
  induction h with
  | nil => rfl
  | cons x _ ih => simp only [enumValue]; rw [ih (List.nodup_cons.1 hn).2]
  | swap x y l =>
    simp only [List.map_cons, List.nodup_cons, List.mem_cons, not_or] at hn
    simp only [enumValue]
    by_cases h1 : y.2 = s <;> by_cases h2 : x.2 = s <;> simp [h1, h2]
    exact absurd (h1.trans h2.symm) hn.1.1
  | trans h1 _ ih1 ih2 => exact (ih1 hn).trans (ih2 ((h1.map _).nodup_iff.1 hn))

theorem enumName_perm {table table' : Table} (h : table.Perm table') (hn : (table.map (·.1)).Nodup) (v : Int) : enumName table v = enumName table' v := by
  induction h with
  | nil => rfl
  | cons x _ ih => simp only [enumName]; rw [ih (List.nodup_cons.1 hn).2]
  | swap x y l =>
    simp only [List.map_cons, List.nodup_cons, List.mem_cons, not_or] at hn
    simp only [enumName]
    by_cases h1 : y.1 = v <;> by_cases h2 : x.1 = v <;> simp [h1, h2]
    exact absurd (h1.trans h2.symm) hn.1.1
  | trans h1 _ ih1 ih2 => exact (ih1 hn).trans (ih2 ((h1.map _).nodup_iff.1 hn))

/-- What is put in place of the tables of names and of the classes. -/
structure Sub where
  tab : Table → Table
  cls : Nat → Nat

/-- Different tables stay different, and different classes. -/
def Sub.Inj (f : Sub) : Prop := (∀ a b, f.tab a = f.tab b → a = b) ∧ ∀ c d, f.cls c = f.cls d → c = d

/-- The leaf with another table. -/
def rePrim (f : Sub) : Prim → Prim
  | .enumStr table => .enumStr (f.tab table)
  | p => p

mutual
/-- The type with other tables. -/
def re (f : Sub) : Ty → Ty
  | .prim p => .prim (rePrim f p)
  | .vec t => .vec (re f t)
  | .arr n t => .arr n (re f t)
  | .set t => .set (re f t)
  | .map o t => .map o (re f t)
  | .dict t => .dict (re f t)
  | .tuple ts => .tuple (res f ts)
  | .variant ts => .variant (res f ts)
  | .cls c => .cls (f.cls c)
  | .uptr t => .uptr (re f t)
  | .sptr t => .sptr (re f t)

/-- `re` for lists. -/
def res (f : Sub) : List Ty → List Ty
  | [] => []
  | t :: ts => re f t :: res f ts
end

theorem res_map (f : Sub) (ts : List Ty) : res f ts = ts.map (re f) := by
  induction ts with
  | nil => simp [res]
  | cons t ts ih => simp [res, ih]

theorem rePrim_inj {f : Sub} (hf : f.Inj) {p q : Prim} (h : rePrim f p = rePrim f q) : p = q := by
  cases p <;> cases q <;> simp only [rePrim, Prim.enumStr.injEq, reduceCtorEq] at h ⊢ <;> first | exact h | exact hf.1 _ _ h

mutual
theorem re_inj {f : Sub} (hf : f.Inj) : ∀ {t u : Ty}, re f t = re f u → t = u
  | .prim p, u, h => by cases u <;> simp only [re, reduceCtorEq, Ty.prim.injEq] at h ⊢; exact rePrim_inj hf h
  | .vec t, u, h => by cases u <;> simp only [re, reduceCtorEq, Ty.vec.injEq] at h ⊢; exact re_inj hf h
  | .arr n t, u, h => by cases u <;> simp only [re, reduceCtorEq, Ty.arr.injEq] at h ⊢; exact ⟨h.1, re_inj hf h.2⟩
  | .set t, u, h => by cases u <;> simp only [re, reduceCtorEq, Ty.set.injEq] at h ⊢; exact re_inj hf h
  | .map o t, u, h => by cases u <;> simp only [re, reduceCtorEq, Ty.map.injEq] at h ⊢; exact ⟨h.1, re_inj hf h.2⟩
  | .dict t, u, h => by cases u <;> simp only [re, reduceCtorEq, Ty.dict.injEq] at h ⊢; exact re_inj hf h
  | .tuple ts, u, h => by cases u <;> simp only [re, reduceCtorEq, Ty.tuple.injEq] at h ⊢; exact res_inj hf h
  | .variant ts, u, h => by cases u <;> simp only [re, reduceCtorEq, Ty.variant.injEq] at h ⊢; exact res_inj hf h
  | .cls c, u, h => by cases u <;> simp only [re, reduceCtorEq, Ty.cls.injEq] at h ⊢; exact hf.2 _ _ h
  | .uptr t, u, h => by cases u <;> simp only [re, reduceCtorEq, Ty.uptr.injEq] at h ⊢; exact re_inj hf h
  | .sptr t, u, h => by cases u <;> simp only [re, reduceCtorEq, Ty.sptr.injEq] at h ⊢; exact re_inj hf h

theorem res_inj {f : Sub} (hf : f.Inj) : ∀ {ts us : List Ty}, res f ts = res f us → ts = us
  | [], us, h => by cases us <;> simp only [res, reduceCtorEq] at h ⊢
  | t :: ts, us, h => by
    cases us with
    | nil => simp [res] at h
    | cons u us =>
      simp only [res, List.cons.injEq] at h ⊢
      exact ⟨re_inj hf h.1, res_inj hf h.2⟩
end

/-- The member with other tables in its type. -/
def reMember (f : Sub) (m : Member) : Member := { m with ty := re f m.ty }

/-- `env'` is the program `env` with other tables and other names of classes: everything else is the same, and variables start with the same content. -/
structure Retabled (f : Sub) (env env' : Env) : Prop where
  members : ∀ c, env'.members (f.cls c) = (env.members c).map (reMember f)
  endian : env'.endian = env.endian
  foreign : env'.foreign = env.foreign
  junk : env'.junk = env.junk
  clk : env'.clk = env.clk
  order : env'.order = env.order
  less : env'.less = env.less
  fragment : env'.fragment = env.fragment
  fresh : ∀ t, env'.fresh (re f t) = env.fresh t
  ctor : ∀ t, env'.ctor (re f t) = env.ctor t

/-! ## Writing -/

section
variable {f : Sub} {env env' : Env} (hr : Retabled f env env') (hn : ∀ table v, enumName (f.tab table) v = enumName table v)
include hr hn

theorem serPrim_re (p : Prim) (v : PVal) : serPrim env' (rePrim f p) v = serPrim env p v := by
  cases p <;> cases v <;> simp only [rePrim, serPrim, hr.endian, hr.foreign, hr.junk, hr.clk, hn]

omit hn in
theorem iterate_re {α : Type} (o : Bool) (segs : List Seg) (kvs : List (Str × α)) : iterate env' o segs kvs = iterate env o segs kvs := by
  simp only [iterate, hr.order]

mutual
theorem ser_re : ∀ (v : Val) (t : Ty) (segs : List Seg) (σ : STab), ser env' v (re f t) segs σ = ser env v t segs σ
  | .prim p, t, segs, σ => by
    cases t with
    | prim k => simp only [re, ser, serPrim_re hr hn]
    | _ => simp only [re]; rfl
  | .seq vs, t, segs, σ => by
    cases t with
    | vec t =>
      have := serItems_re vs (List.replicate vs.length t) 0 segs σ
      simp only [List.map_replicate] at this
      simp only [re, ser, this]
    | _ => simp only [re]; rfl
  | .tup vs, t, segs, σ => by
    cases t with
    | arr n t =>
      have := serItems_re vs (List.replicate n t) 0 segs σ
      simp only [List.map_replicate] at this
      simp only [re, ser, this]
    | tuple ts => simp only [re, res_map, ser, serItems_re vs ts 0 segs σ]
    | _ => simp only [re]; rfl
  | .set vs, t, segs, σ => by
    cases t with
    | set t => simp only [re, ser, serSet_re vs t segs σ]
    | _ => simp only [re]; rfl
  | .map kvs, t, segs, σ => by
    cases t with
    | map o t => simp only [re, ser, serVals_re kvs t, iterate_re hr]
    | _ => simp only [re]; rfl
  | .dict kvs, t, segs, σ => by
    cases t with
    | dict t => simp only [re, ser, serVals_re kvs t]
    | _ => simp only [re]; rfl
  | .alt i v, t, segs, σ => by
    cases t with
    | variant ts =>
      simp only [re, res_map, ser, List.getElem?_map]
      cases ts[i]? with
      | none => rfl
      | some t => exact ser_re v t segs σ
    | _ => simp only [re]; rfl
  | .obj vs, t, segs, σ => by
    cases t with
    | cls c => simp only [re, ser, hr.members, serMembers_re vs (env.members c) segs σ]
    | _ => simp only [re]; rfl
  | .uptr v, t, segs, σ => by
    cases t with
    | uptr t => simp only [re, ser]; exact ser_re v t segs σ
    | _ => simp only [re]; rfl
  | .sptr a v, t, segs, σ => by
    cases t with
    | sptr t => simp only [re, ser, ser_re v t segs σ]
    | _ => simp only [re]; rfl
  | .absent, t, segs, σ => by cases t <;> simp only [re] <;> rfl
  | .present v, t, segs, σ => by cases t <;> simp only [re] <;> rfl
  | .nullptr, t, segs, σ => by cases t <;> simp only [re] <;> rfl

theorem serItems_re : ∀ (vs : List Val) (ts : List Ty) (k : Nat) (segs : List Seg) (σ : STab), serItems env' vs (ts.map (re f)) k segs σ = serItems env vs ts k segs σ
  | [], ts, k, segs, σ => by cases ts <;> simp [serItems]
  | v :: vs, ts, k, segs, σ => by
    cases ts with
    | nil => simp [serItems]
    | cons t ts =>
      simp only [List.map_cons, serItems, ser_re v t]
      cases ser env v t (.index k :: segs) σ with
      | ub => rfl
      | done σ' r => cases r <;> simp only [serItems_re vs ts (k + 1) segs σ']

theorem serSet_re : ∀ (vs : List Val) (t : Ty) (segs : List Seg) (σ : STab), serSet env' vs (re f t) segs σ = serSet env vs t segs σ
  | [], t, segs, σ => by simp [serSet]
  | v :: vs, t, segs, σ => by
    simp only [serSet, ser_re v t]
    cases ser env v t segs σ with
    | ub => rfl
    | done σ' r => cases r <;> simp only [serSet_re vs t segs σ']

theorem serVals_re : ∀ (kvs : List (Str × Val)) (t : Ty), serVals env' kvs (re f t) = serVals env kvs t
  | [], t => by simp [serVals]
  | (k, v) :: kvs, t => by
    simp only [serVals, serVals_re kvs t]
    congr 2
    funext segs σ
    exact ser_re v t segs σ

theorem serMembers_re : ∀ (vs : List Val) (ms : List Member) (segs : List Seg) (σ : STab), serMembers env' vs (ms.map (reMember f)) segs σ = serMembers env vs ms segs σ
  | [], ms, segs, σ => by cases ms <;> simp [serMembers]
  | v :: vs, ms, segs, σ => by
    cases ms with
    | nil => simp [serMembers]
    | cons m ms =>
      obtain ⟨name, kind, ty⟩ := m
      have ih := serMembers_re vs ms
      cases kind with
      | optional =>
        cases v with
        | present w => simp only [List.map_cons, reMember, serMembers, ser_re w ty, ih]
        | _ => simp only [List.map_cons, reMember, serMembers, ih]
      | required => simp only [List.map_cons, reMember, serMembers, ser_re v ty, ih]
      | default => simp only [List.map_cons, reMember, serMembers, ser_re v ty, ih]
end

mutual
theorem wr_re : ∀ (v : Val) (t : Ty) (segs : List Seg) (σ : STab), wr env' v (re f t) segs σ = wr env v t segs σ
  | .prim p, t, segs, σ => by
    cases t with
    | prim k => simp only [re, wr, serPrim_re hr hn]
    | _ => simp only [re]; rfl
  | .seq vs, t, segs, σ => by
    cases t with
    | vec t =>
      have := wrItems_re vs (List.replicate vs.length t) 0 segs σ
      simp only [List.map_replicate] at this
      simp only [re, wr, this]
    | _ => simp only [re]; rfl
  | .tup vs, t, segs, σ => by
    cases t with
    | arr n t =>
      have := wrItems_re vs (List.replicate n t) 0 segs σ
      simp only [List.map_replicate] at this
      simp only [re, wr, this]
    | tuple ts => simp only [re, res_map, wr, wrItems_re vs ts 0 segs σ]
    | _ => simp only [re]; rfl
  | .set vs, t, segs, σ => by
    cases t with
    | set t => simp only [re, wr, wrSet_re vs t segs σ]
    | _ => simp only [re]; rfl
  | .map kvs, t, segs, σ => by
    cases t with
    | map o t => simp only [re, wr, wrVals_re kvs t, iterate_re hr]
    | _ => simp only [re]; rfl
  | .dict kvs, t, segs, σ => by
    cases t with
    | dict t => simp only [re, wr, wrVals_re kvs t]
    | _ => simp only [re]; rfl
  | .alt i v, t, segs, σ => by
    cases t with
    | variant ts =>
      simp only [re, res_map, wr, List.getElem?_map]
      cases ts[i]? with
      | none => rfl
      | some t => exact wr_re v t segs σ
    | _ => simp only [re]; rfl
  | .obj vs, t, segs, σ => by
    cases t with
    | cls c => simp only [re, wr, hr.members, wrMembers_re vs (env.members c) segs σ]
    | _ => simp only [re]; rfl
  | .uptr v, t, segs, σ => by
    cases t with
    | uptr t => simp only [re, wr]; exact wr_re v t segs σ
    | _ => simp only [re]; rfl
  | .sptr a v, t, segs, σ => by
    cases t with
    | sptr t => simp only [re, wr, wr_re v t segs σ]
    | _ => simp only [re]; rfl
  | .absent, t, segs, σ => by cases t <;> simp only [re] <;> rfl
  | .present v, t, segs, σ => by cases t <;> simp only [re] <;> rfl
  | .nullptr, t, segs, σ => by cases t <;> simp only [re] <;> rfl

theorem wrItems_re : ∀ (vs : List Val) (ts : List Ty) (k : Nat) (segs : List Seg) (σ : STab), wrItems env' vs (ts.map (re f)) k segs σ = wrItems env vs ts k segs σ
  | [], ts, k, segs, σ => by cases ts <;> simp [wrItems]
  | v :: vs, ts, k, segs, σ => by
    cases ts with
    | nil => simp [wrItems]
    | cons t ts =>
      simp only [List.map_cons, wrItems, wr_re v t]
      cases wr env v t (.index k :: segs) σ with
      | ub => rfl
      | done σ' r es => cases r <;> simp only [wrItems_re vs ts (k + 1) segs σ']

theorem wrSet_re : ∀ (vs : List Val) (t : Ty) (segs : List Seg) (σ : STab), wrSet env' vs (re f t) segs σ = wrSet env vs t segs σ
  | [], t, segs, σ => by simp [wrSet]
  | v :: vs, t, segs, σ => by
    simp only [wrSet, wr_re v t]
    cases wr env v t segs σ with
    | ub => rfl
    | done σ' r es => cases r <;> simp only [wrSet_re vs t segs σ']

theorem wrVals_re : ∀ (kvs : List (Str × Val)) (t : Ty), wrVals env' kvs (re f t) = wrVals env kvs t
  | [], t => by simp [wrVals]
  | (k, v) :: kvs, t => by
    simp only [wrVals, wrVals_re kvs t]
    congr 2
    funext segs σ
    exact wr_re v t segs σ

theorem wrMembers_re : ∀ (vs : List Val) (ms : List Member) (segs : List Seg) (σ : STab), wrMembers env' vs (ms.map (reMember f)) segs σ = wrMembers env vs ms segs σ
  | [], ms, segs, σ => by cases ms <;> simp [wrMembers]
  | v :: vs, ms, segs, σ => by
    cases ms with
    | nil => simp [wrMembers]
    | cons m ms =>
      obtain ⟨name, kind, ty⟩ := m
      have ih := wrMembers_re vs ms
      cases kind with
      | optional =>
        cases v with
        | present w => simp only [List.map_cons, reMember, wrMembers, wr_re w ty, ih]
        | _ => simp only [List.map_cons, reMember, wrMembers, ih]
      | required => simp only [List.map_cons, reMember, wrMembers, wr_re v ty, ih]
      | default => simp only [List.map_cons, reMember, wrMembers, wr_re v ty, ih]
end

end

/-! ## Reading -/

/-- The entries of the table of references with other types. -/
def reState (f : Sub) (st : DState) : DState := ⟨st.refs.map fun e => (e.1, e.2.1, re f e.2.2.1, e.2.2.2), st.next⟩

/-- The outcome with the types in the table of references changed. -/
def reOut {α : Type} (f : Sub) : DRes α → DRes α
  | .ub => .ub
  | .threw segs e => .threw segs e
  | .done ok a st => .done ok a (reState f st)

theorem reOut_done {α : Type} (f : Sub) (ok : Bool) (a : α) (st : DState) : reOut f (.done ok a st) = .done ok a (reState f st) := rfl

theorem reOut_map {α β : Type} (f : Sub) (g : α → β) (r : DRes α) : reOut f (r.map g) = (reOut f r).map g := by cases r <;> rfl

theorem reOut_reject {α : Type} (f : Sub) (exc : Bool) (segs : List Seg) (e : Err) (a : α) (st : DState) :
    DRes.reject exc segs e a (reState f st) = reOut f (DRes.reject exc segs e a st) := by cases exc <;> rfl

theorem reState_lookup (f : Sub) (st : DState) (loc : Loc) :
    (reState f st).refs.lookup loc = (st.refs.lookup loc).map fun e => (e.1, re f e.2.1, e.2.2) := by
  simp only [reState]
  induction st.refs with
  | nil => rfl
  | cons e es ih =>
    obtain ⟨l, a, t, v⟩ := e
    simp only [List.map_cons, List.lookup_cons, ih]
    cases loc == l <;> rfl

theorem reState_put (f : Sub) (st : DState) (loc : Loc) (a : Nat) (t : Ty) (v : Val) :
    (reState f st).put loc (a, re f t, v) = reState f (st.put loc (a, t, v)) := by
  simp only [DState.put, reState_lookup]
  cases st.refs.lookup loc <;> rfl

/-- Readers that do the same but for the tables. -/
def Alike (f : Sub) (r r' : DesFn) : Prop :=
  ∀ exc t target loc segs st, r' exc (re f t) target loc segs (reState f st) = reOut f (r exc t target loc segs st)

section
variable {f : Sub} {env env' : Env} (hr : Retabled f env env') (hv : ∀ table s, enumValue (f.tab table) s = enumValue table s)
  (hf : f.Inj)
include hr

include hv in
theorem desPrim_re (p : Prim) (j : Json) : desPrim env' (rePrim f p) j = desPrim env p j := by
  cases p <;> cases j <;> simp only [rePrim, desPrim, hr.clk, hv]

omit hr in
theorem spoil_re (p : Prim) (j : Json) (target : Val) : spoil (rePrim f p) j target = spoil p j target := by
  cases p <;> rfl

theorem runSame_re (t : Ty) (exc : Bool) (rs rs' : List DesFn) (h : List.Forall₂ (Alike f) rs rs') (k : Nat) (loc : Loc) (segs : List Seg) (st : DState) :
    runSame env' (re f t) exc rs' k loc segs (reState f st) = reOut f (runSame env t exc rs k loc segs st) := by
  induction h generalizing k st with
  | nil => rfl
  | cons h _ ih =>
    simp only [runSame, hr.fresh, h _ t]
    rename_i r r' rs rs' _
    cases r exc t (env.fresh t) (k :: loc) (.index k :: segs) st with
    | ub => rfl
    | threw => rfl
    | done ok v st' =>
      cases ok with
      | false => rfl
      | true => simp only [reOut_done, ih, reOut_map]

theorem runTuple_re (exc : Bool) (rs rs' : List DesFn) (h : List.Forall₂ (Alike f) rs rs') (ts : List Ty) (targets : List Val) (k : Nat) (loc : Loc) (segs : List Seg)
    (st : DState) : runTuple env' exc rs' (ts.map (re f)) targets k loc segs (reState f st) = reOut f (runTuple env exc rs ts targets k loc segs st) := by
  induction h generalizing ts targets k st with
  | nil => cases ts <;> simp [runTuple, reOut]
  | cons h _ ih =>
    cases ts with
    | nil => simp [runTuple, reOut]
    | cons t ts =>
      simp only [List.map_cons, runTuple, hr.fresh, h _ t]
      rename_i r r' rs rs' _
      cases r exc t (targets.headD (env.fresh t)) (k :: loc) (.index k :: segs) st with
      | ub => rfl
      | threw => rfl
      | done ok v st' =>
        cases ok with
        | false => rfl
        | true => simp only [reOut_done, ih, reOut_map]

/-- Named readers that do the same but for the tables. -/
def AlikeNamed (f : Sub) (r r' : Str × DesFn) : Prop := r.1 = r'.1 ∧ Alike f r.2 r'.2

theorem runEntries_re (t : Ty) (exc : Bool) (rs rs' : List (Str × DesFn)) (h : List.Forall₂ (AlikeNamed f) rs rs') (k : Nat) (loc : Loc) (segs : List Seg)
    (st : DState) : runEntries env' (re f t) exc rs' k loc segs (reState f st) = reOut f (runEntries env t exc rs k loc segs st) := by
  induction h generalizing k st with
  | nil => rfl
  | @cons r r' rs rs' h _ ih =>
    obtain ⟨key, r⟩ := r
    obtain ⟨key', r'⟩ := r'
    obtain ⟨h1, h2⟩ := h
    cases h1
    replace h2 : Alike f r r' := h2
    simp only [runEntries, hr.fresh, h2 _ t]
    cases r exc t (env.fresh t) (k :: loc) (Seg.name (cstr key) :: segs) st with
    | ub => rfl
    | threw => rfl
    | done ok v st' =>
      cases ok with
      | false => rfl
      | true => simp only [reOut_done, ih, reOut_map]

omit hr in
theorem find_re (name : Str) (rs rs' : List (Str × DesFn)) (h : List.Forall₂ (AlikeNamed f) rs rs') :
    (findMember name rs = none ∧ findMember name rs' = none) ∨ ∃ i r r', findMember name rs = some (i, r) ∧ findMember name rs' = some (i, r') ∧ Alike f r r' := by
  induction h with
  | nil => exact .inl ⟨rfl, rfl⟩
  | @cons r r' rs rs' h _ ih =>
    obtain ⟨key, r⟩ := r
    obtain ⟨key', r'⟩ := r'
    obtain ⟨h1, h2⟩ := h
    cases h1
    replace h2 : Alike f r r' := h2
    simp only [findMember]
    by_cases hk : key = name
    · simp only [hk, if_true]
      exact .inr ⟨0, r, r', rfl, rfl, h2⟩
    · simp only [hk, if_false]
      rcases ih with ⟨h1, h2⟩ | ⟨i, r, r', h1, h2, h3⟩
      · simp [h1, h2]
      · simp only [h1, h2]
        exact .inr ⟨i + 1, r, r', rfl, rfl, h3⟩

theorem runMembers_re (exc : Bool) (rs rs' : List (Str × DesFn)) (h : List.Forall₂ (AlikeNamed f) rs rs') (loc : Loc) (segs : List Seg) (ms : List Member)
    (targets : List Val) (ok : Bool) (st : DState) :
    runMembers env' exc rs' loc segs (ms.map (reMember f)) targets ok (reState f st) = reOut f (runMembers env exc rs loc segs ms targets ok st) := by
  induction ms generalizing targets ok st with
  | nil => rfl
  | cons m ms ih =>
    obtain ⟨name, kind, ty⟩ := m
    simp only [List.map_cons, runMembers, reMember, hr.fresh]
    rcases find_re name rs rs' h with ⟨h1, h2⟩ | ⟨i, r, r', h1, h2, h3⟩
    · simp only [h1, h2]
      cases kind with
      | optional => simp only [ih, reOut_map]
      | default => simp only [ih, reOut_map]
      | required =>
        cases exc with
        | true => rfl
        | false => simp only [Bool.false_eq_true, if_false, ih, reOut_map]
    · simp only [h1, h2, h3 _ ty]
      cases r exc ty (if kind = .optional then env.fresh ty else targets.headD (env.fresh ty)) (i :: loc) (Seg.name (cstr name) :: segs) st with
      | ub => rfl
      | threw => rfl
      | done ok v st' => simp only [reOut_done, ih, reOut_map]

include hf in
theorem readRef_re (root : Json) (t : Ty) (r : Json) (target : Val) (st : DState) :
    readRef env' root (re f t) r target (reState f st) = reOut f (readRef env root t r target st) := by
  cases r with
  | str p =>
    have hp : pointerTokens env' p = pointerTokens env p := by simp only [pointerTokens, hr.fragment]
    simp only [readRef, hp]
    cases pointerTokens env p with
    | none => rfl
    | some toks =>
      simp only []
      cases pointerGet root toks with
      | none => rfl
      | some q =>
        simp only [DState.get, reState_lookup]
        cases st.refs.lookup q.reverse with
        | none => rfl
        | some e =>
          obtain ⟨a, t', v⟩ := e
          simp only [Option.map_some]
          by_cases ht : t' = t
          · simp only [ht, if_true, reOut_done]
          · rw [if_neg ht, if_neg fun h => ht (re_inj hf h)]
            rfl
  | _ => rfl

section
variable (root j : Json) {items items' : List DesFn} (hi : List.Forall₂ (Alike f) items items') {fields fields' : List (Str × DesFn)}
  (hl : List.Forall₂ (AlikeNamed f) fields fields')
include hv hf hi hl

mutual
theorem node_re : ∀ (t : Ty) (exc : Bool) (target : Val) (loc : Loc) (segs : List Seg) (st : DState),
    node env' root j items' fields' (re f t) exc target loc segs (reState f st) = reOut f (node env root j items fields t exc target loc segs st)
  | .prim p, exc, target, loc, segs, st => by
    simp only [re, node, desPrim_re hr hv, spoil_re]
    cases desPrim env p j with
    | ub => rfl
    | reject e => exact reOut_reject ..
    | ok pv => rfl
  | .vec t, exc, target, loc, segs, st => by
    simp only [re, node]
    cases j with
    | arr js => simp only [runSame_re hr t exc items items' hi, reOut_map]
    | _ => exact reOut_reject ..
  | .arr n t, exc, target, loc, segs, st => by
    simp only [re, node]
    cases j with
    | arr js =>
      simp only []
      split
      · rw [runSame_re hr t exc items items' hi]
        cases runSame env t exc items 0 loc segs st with
        | ub => rfl
        | threw => rfl
        | done ok v st' => cases ok <;> rfl
      · exact reOut_reject ..
    | _ => exact reOut_reject ..
  | .set t, exc, target, loc, segs, st => by
    simp only [re, node, hr.less]
    cases j with
    | arr js => simp only [runSame_re hr t exc items items' hi, reOut_map]
    | _ => exact reOut_reject ..
  | .map o t, exc, target, loc, segs, st => by
    simp only [re, node]
    cases j with
    | obj ms => simp only [runEntries_re hr t exc fields fields' hl, reOut_map]
    | _ => exact reOut_reject ..
  | .dict t, exc, target, loc, segs, st => by
    have ht : re f (.tuple [.prim .str, t]) = .tuple [.prim .str, re f t] := by simp [re, res, rePrim]
    simp only [re, node]
    cases j with
    | arr js => simp only [← ht, runSame_re hr (.tuple [.prim .str, t]) exc items items' hi, reOut_map]
    | _ => exact reOut_reject ..
  | .tuple ts, exc, target, loc, segs, st => by
    simp only [re, node, res_map, List.length_map]
    cases j with
    | arr js =>
      simp only []
      split
      · simp only [runTuple_re hr exc items items' hi, reOut_map]
      · exact reOut_reject ..
    | _ => exact reOut_reject ..
  | .variant ts, exc, target, loc, segs, st => by
    simp only [re, node, alternatives_re ts 0 loc segs st]
    cases alternatives env root j items fields ts 0 loc segs st with
    | ub => rfl
    | threw => rfl
    | done ok v st' =>
      cases ok with
      | true => rfl
      | false => exact reOut_reject ..
  | .cls c, exc, target, loc, segs, st => by
    simp only [re, node, hr.members]
    cases j with
    | obj ms => simp only [runMembers_re hr exc fields fields' hl, reOut_map]
    | _ => exact reOut_reject ..
  | .uptr t, exc, target, loc, segs, st => by
    simp only [re, node, hr.ctor, node_re t exc _ loc segs st]
    cases node env root j items fields t exc (env.ctor t) loc segs st with
    | ub => rfl
    | threw => rfl
    | done ok v st' => cases ok <;> rfl
  | .sptr t, exc, target, loc, segs, st => by
    simp only [re, node, hr.ctor]
    cases refMember j with
    | some r => exact readRef_re hr hf root t r target st
    | none =>
      have := node_re t exc (env.ctor t) loc segs { st with next := st.next + 1 }
      have hs : reState f { st with next := st.next + 1 } = { reState f st with next := (reState f st).next + 1 } := rfl
      rw [hs] at this
      simp only [this]
      cases node env root j items fields t exc (env.ctor t) loc segs { st with next := st.next + 1 } with
      | ub => rfl
      | threw => rfl
      | done ok v st' =>
        cases ok with
        | false => rfl
        | true =>
          simp only [reOut_done]
          rw [← reState_put]
          rfl

theorem alternatives_re : ∀ (ts : List Ty) (i : Nat) (loc : Loc) (segs : List Seg) (st : DState),
    alternatives env' root j items' fields' (res f ts) i loc segs (reState f st) = reOut f (alternatives env root j items fields ts i loc segs st)
  | [], i, loc, segs, st => by simp only [res, alternatives]; rfl
  | t :: ts, i, loc, segs, st => by
    simp only [res, alternatives, hr.fresh, node_re t false _ loc segs st]
    cases node env root j items fields t false (env.fresh t) loc segs st with
    | ub => rfl
    | threw => rfl
    | done ok v st' =>
      cases ok with
      | true => rfl
      | false => exact alternatives_re ts (i + 1) loc segs st'
end
end

section
include hv hf

theorem deser_re (root : Json) : ∀ j : Json, Alike f (deser env root j) (deser env' root j)
  | j => by
    intro exc t target loc segs st
    rw [deser_node, deser_node]
    apply node_re hr hv hf
    · rw [List.forall₂_map_left_iff, List.forall₂_map_right_iff, List.forall₂_same]
      intro x hx
      exact deser_re root x
    · rw [List.forall₂_map_left_iff, List.forall₂_map_right_iff, List.forall₂_same]
      intro x hx
      exact ⟨rfl, deser_re root x.2⟩
termination_by j => sizeOf j
decreasing_by
  · cases j <;> simp only [Json.items, List.not_mem_nil] at hx
    have := List.sizeOf_lt_of_mem hx
    simp; omega
  · cases j <;> simp only [Json.fields, List.not_mem_nil] at hx
    have := List.sizeOf_lt_of_mem hx
    obtain ⟨k, x⟩ := x
    simp at this ⊢
    omega
end

end

end Verif.Retable
