import Verif.Shuffle

/-!
# Members of classes in another order (C126)

`Relisted env env'`: the classes of `env'` list the members of the classes of `env` in another order (`persist` functions and descriptions of classes that name the
members in another order, deserialize_object.hpp:31-82).
-/

namespace Verif.Listed
open Verif.Core Verif.Shuffle

mutual
/-- No class inside. -/
def classFree : Ty → Bool
  | .prim _ => true
  | .vec t | .arr _ t | .set t | .map _ t | .dict t | .uptr t | .sptr t => classFree t
  | .tuple ts | .variant ts => classFrees ts
  | .cls _ => false

/-- `classFree` for lists. -/
def classFrees : List Ty → Bool
  | [] => true
  | t :: ts => classFree t && classFrees ts
end

mutual
/-- No class inside the alternatives of a variant. -/
def plainAlts : Ty → Bool
  | .prim _ => true
  | .vec t | .arr _ t | .set t | .map _ t | .dict t | .uptr t | .sptr t => plainAlts t
  | .tuple ts => plainAltss ts
  | .variant ts => classFrees ts
  | .cls _ => true

/-- `plainAlts` for lists. -/
def plainAltss : List Ty → Bool
  | [] => true
  | t :: ts => plainAlts t && plainAltss ts
end

theorem classFrees_iff (ts : List Ty) : classFrees ts = true ↔ ∀ t ∈ ts, classFree t = true := by
  induction ts with
  | nil => simp [classFrees]
  | cons t ts ih => simp [classFrees, ih]

theorem plainAltss_iff (ts : List Ty) : plainAltss ts = true ↔ ∀ t ∈ ts, plainAlts t = true := by
  induction ts with
  | nil => simp [plainAltss]
  | cons t ts ih => simp [plainAltss, ih]

/-- The classes list their members in another order. -/
def Relisted (env env' : Env) : Prop := ∀ c, (env.members c).Perm (env'.members c)

/-- A document for a type without classes is refused whatever the classes are. -/
theorem refused_classFree {env env' : Env} (hclk : env.clk = env'.clk) {exc : Bool} {t : Ty} {j : Json} (hr : Refused env exc t j) (hf : classFree t = true) :
    Refused env' exc t j := by
  induction hr with
  | prim exc p j hn => exact .prim exc p j fun pv h => hn pv (leaf_transfer hclk h)
  | array exc t j hw hj => exact .array exc t j hw hj
  | object exc t j hw hj => exact .object exc t j hw hj
  | vec exc t js j hj _ ih => exact .vec exc t js j hj (ih (by simpa [classFree] using hf))
  | arr exc n t js j hj _ ih => exact .arr exc n t js j hj (ih (by simpa [classFree] using hf))
  | arrLength exc n t js hl => exact .arrLength exc n t js hl
  | set exc t js j hj _ ih => exact .set exc t js j hj (ih (by simpa [classFree] using hf))
  | map exc o t ms p hp _ ih => exact .map exc o t ms p hp (ih (by simpa [classFree] using hf))
  | dict exc t js j hj _ ih => exact .dict exc t js j hj (ih (by simpa [classFree, classFrees] using hf))
  | tuple exc ts js i t j hi hji _ ih =>
    exact .tuple exc ts js i t j hi hji (ih ((classFrees_iff ts).1 (by simpa [classFree] using hf) t (List.mem_of_getElem? hi)))
  | tupleLength exc ts js hl => exact .tupleLength exc ts js hl
  | variant exc ts j _ ih => exact .variant exc ts j fun t ht => ih t ht ((classFrees_iff ts).1 (by simpa [classFree] using hf) t ht)
  | member | missing | last | lastMissing => simp [classFree] at hf
  | uptr exc t j _ ih => exact .uptr exc t j (ih (by simpa [classFree] using hf))

/-- What the throwing reader refuses does not depend on the order of members. -/
theorem refused_listed {env env' : Env} (hclk : env.clk = env'.clk) (hl : Relisted env env') (hs : ∀ c, ∀ m ∈ env.members c, plainAlts m.ty = true) {exc : Bool}
    {t : Ty} {j : Json} (hr : Refused env exc t j) (hx : exc = true) (ht : plainAlts t = true) : Refused env' exc t j := by
  induction hr with
  | prim exc p j hn => exact .prim exc p j fun pv h => hn pv (leaf_transfer hclk h)
  | array exc t j hw hj => exact .array exc t j hw hj
  | object exc t j hw hj => exact .object exc t j hw hj
  | vec exc t js j hj _ ih => exact .vec exc t js j hj (ih hx (by simpa [plainAlts] using ht))
  | arr exc n t js j hj _ ih => exact .arr exc n t js j hj (ih hx (by simpa [plainAlts] using ht))
  | arrLength exc n t js hl => exact .arrLength exc n t js hl
  | set exc t js j hj _ ih => exact .set exc t js j hj (ih hx (by simpa [plainAlts] using ht))
  | map exc o t ms p hp _ ih => exact .map exc o t ms p hp (ih hx (by simpa [plainAlts] using ht))
  | dict exc t js j hj _ ih => exact .dict exc t js j hj (ih hx (by simpa [plainAlts, plainAltss] using ht))
  | tuple exc ts js i t j hi hji _ ih =>
    exact .tuple exc ts js i t j hi hji (ih hx ((plainAltss_iff ts).1 (by simpa [plainAlts] using ht) t (List.mem_of_getElem? hi)))
  | tupleLength exc ts js hl => exact .tupleLength exc ts js hl
  | variant exc ts j h _ => exact .variant exc ts j fun t hm => refused_classFree hclk (h t hm) ((classFrees_iff ts).1 (by simpa [plainAlts] using ht) t hm)
  | member c ms m i j hm hi _ ih => exact .member c ms m i j ((hl c).mem_iff.1 hm) hi (ih rfl (hs c m hm))
  | missing c ms m hm hi hk => exact .missing c ms m ((hl c).mem_iff.1 hm) hi hk
  | last | lastMissing => cases hx
  | uptr exc t j _ ih => exact .uptr exc t j (ih hx (by simpa [plainAlts] using ht))

/-- What the reader without exceptions refuses the throwing one refuses. -/
theorem refused_strict {env : Env} {exc : Bool} {t : Ty} {j : Json} (hr : Refused env exc t j) : Refused env true t j := by
  induction hr with
  | prim _ p j hn => exact .prim true p j hn
  | array _ t j hw hj => exact .array true t j hw hj
  | object _ t j hw hj => exact .object true t j hw hj
  | vec _ t js j hj _ ih => exact .vec true t js j hj ih
  | arr _ n t js j hj _ ih => exact .arr true n t js j hj ih
  | arrLength _ n t js hl => exact .arrLength true n t js hl
  | set _ t js j hj _ ih => exact .set true t js j hj ih
  | map _ o t ms p hp _ ih => exact .map true o t ms p hp ih
  | dict _ t js j hj _ ih => exact .dict true t js j hj ih
  | tuple _ ts js i t j hi hji _ ih => exact .tuple true ts js i t j hi hji ih
  | tupleLength _ ts js hl => exact .tupleLength true ts js hl
  | variant _ ts j h _ => exact .variant true ts j h
  | member c ms m i j hm hi h _ => exact .member c ms m i j hm hi h
  | missing c ms m hm hi hk => exact .missing c ms m hm hi hk
  | last c ms pre m post i j hm _ hi _ ih => exact .member c ms m i j (by rw [hm]; simp) hi ih
  | lastMissing c ms pre m post hm _ hi hk => exact .missing c ms m (by rw [hm]; simp) hi hk
  | uptr _ t j _ ih => exact .uptr true t j ih

theorem Relisted.symm {env env' : Env} (h : Relisted env env') : Relisted env' env := fun c => (h c).symm

theorem Relisted.lower {env env' : Env} (h : Relisted env env') : Relisted env.lower env'.lower := fun c => by
  rw [Env.lower_members, Env.lower_members]
  exact (h c).map _

/-- Both directions. -/
theorem refused_listed_iff {env env' : Env} (hclk : env.clk = env'.clk) (hl : Relisted env env') (hs : ∀ c, ∀ m ∈ env.members c, plainAlts m.ty = true)
    (t : Ty) (ht : plainAlts t = true) (j : Json) : Refused env true t j ↔ Refused env' true t j :=
  ⟨fun h => refused_listed hclk hl hs h rfl ht, fun h => refused_listed hclk.symm hl.symm (fun c m hm => hs c m ((hl c).mem_iff.2 hm)) h rfl ht⟩

mutual
theorem lower_classFree : ∀ t : Ty, classFree t.lower = classFree t
  | .prim _ => by simp [Ty.lower, classFree]
  | .vec t | .arr _ t | .set t | .map _ t | .dict t | .uptr t | .sptr t => by simp only [Ty.lower, classFree]; exact lower_classFree t
  | .tuple ts | .variant ts => by simp only [Ty.lower, classFree]; exact lowers_classFree ts
  | .cls _ => by simp [Ty.lower, classFree]

theorem lowers_classFree : ∀ ts : List Ty, classFrees (Ty.lowers ts) = classFrees ts
  | [] => by simp [Ty.lowers, classFrees]
  | t :: ts => by simp only [Ty.lowers, classFrees, lower_classFree t, lowers_classFree ts]
end

mutual
theorem lower_plainAlts : ∀ t : Ty, plainAlts t.lower = plainAlts t
  | .prim _ => by simp [Ty.lower, plainAlts]
  | .vec t | .arr _ t | .set t | .map _ t | .dict t | .uptr t | .sptr t => by simp only [Ty.lower, plainAlts]; exact lower_plainAlts t
  | .tuple ts => by simp only [Ty.lower, plainAlts]; exact lowers_plainAlts ts
  | .variant ts => by simp only [Ty.lower, plainAlts]; exact lowers_classFree ts
  | .cls _ => by simp [Ty.lower, plainAlts]

theorem lowers_plainAlts : ∀ ts : List Ty, plainAltss (Ty.lowers ts) = plainAltss ts
  | [] => by simp [Ty.lowers, plainAltss]
  | t :: ts => by simp only [Ty.lowers, plainAltss, lower_plainAlts t, lowers_plainAlts ts]
end

end Verif.Listed
