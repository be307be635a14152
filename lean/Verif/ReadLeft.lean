import Verif.ReadExact
import Verif.ReadShared
import Verif.Base64Dec
import Verif.Conveys
import Verif.ReadTyped

/-!
# What `bool deserialize` leaves in the variable

`Remnant env t j target w`: after the document `j` has been read into a variable of type `t` that held `target`, the
variable holds `w`, whether the document was refused or not. The specification does not refer to the readers; which documents are
refused is `Refused` (`ReadExact`), for types with shared pointers after `Ty.lower` (`ReadShared`).
-/

namespace Verif.Core
open Verif.Numeric Verif.EnumConv

/-- The document is refused as a `t`. -/
def Turned (env : Env) (t : Ty) (j : Json) : Prop := Refused env.lower false t.lower j

/-- What a leaf holds after its document was refused: bytes are lost, everything else is as before. -/
def leafLeft (p : Prim) (j : Json) (target : Val) : Val :=
  match p, j with
  | .bytes, .str s => .prim (.bytes (Base64.Spec.wreck s))
  | _, _ => target

/-- What is left in the variable.

* Vectors, sets, maps and dictionaries are emptied and hold the elements in front of the first one that is refused.
* Arrays, variants and `unique_ptr` are as before if the document is refused.
* Tuples have the components in front of the first one that is refused, what this one leaves, and the old ones after it.
* Each member of an object holds what its own value leaves, whatever happens to other members. Optional members are
  replaced in any case.
* `shared_ptr` points to a new object in any case, which holds what is left there. -/
inductive Remnant (env : Env) : Ty → Json → Val → Val → Prop
  | prim (p : Prim) (j : Json) (target : Val) (pv : PVal) : LeafReads env p j pv → Remnant env (.prim p) j target (.prim pv)
  | leaf (p : Prim) (j : Json) (target : Val) : (∀ pv, ¬ LeafReads env p j pv) → Remnant env (.prim p) j target (leafLeft p j target)
  | array (t : Ty) (j : Json) (target : Val) : t.wantsArray = true → (∀ js, j ≠ .arr js) → Remnant env t j target target
  | object (t : Ty) (j : Json) (target : Val) : t.wantsObject = true → (∀ ms, j ≠ .obj ms) → Remnant env t j target target
  | vec (t : Ty) (js : List Json) (target : Val) (vs : List Val) : vs.length ≤ js.length →
      (∀ (i : Nat) (j : Json) (v : Val), js[i]? = some j → vs[i]? = some v → Remnant env t j (env.fresh t) v) →
      (∀ (i : Nat) (j : Json), i < vs.length → js[i]? = some j → ¬ Turned env t j) →
      (∀ j : Json, js[vs.length]? = some j → Turned env t j) → Remnant env (.vec t) (.arr js) target (.seq vs)
  | arr (n : Nat) (t : Ty) (js : List Json) (target : Val) (vs : List Val) : js.length = n → vs.length = n →
      (∀ (i : Nat) (j : Json) (v : Val), js[i]? = some j → vs[i]? = some v → Remnant env t j (env.fresh t) v) →
      (∀ j : Json, j ∈ js → ¬ Turned env t j) → Remnant env (.arr n t) (.arr js) target (.tup vs)
  | arrRefused (n : Nat) (t : Ty) (js : List Json) (target : Val) : js.length ≠ n ∨ (∃ j, j ∈ js ∧ Turned env t j) →
      Remnant env (.arr n t) (.arr js) target target
  | set (t : Ty) (js : List Json) (target : Val) (vs : List Val) : vs.length ≤ js.length →
      (∀ (i : Nat) (j : Json) (v : Val), js[i]? = some j → vs[i]? = some v → Remnant env t j (env.fresh t) v) →
      (∀ (i : Nat) (j : Json), i < vs.length → js[i]? = some j → ¬ Turned env t j) →
      (∀ j : Json, js[vs.length]? = some j → Turned env t j) → Remnant env (.set t) (.arr js) target (.set (setOf env.less vs))
  | map (o : Bool) (t : Ty) (ms : List (Str × Json)) (target : Val) (kvs : List (Str × Val)) : kvs.length ≤ ms.length →
      (∀ (i : Nat) (p : Str × Json) (q : Str × Val), ms[i]? = some p → kvs[i]? = some q → q.1 = cstr p.1) →
      (∀ (i : Nat) (p : Str × Json) (q : Str × Val), ms[i]? = some p → kvs[i]? = some q → Remnant env t p.2 (env.fresh t) q.2) →
      (∀ (i : Nat) (p : Str × Json), i < kvs.length → ms[i]? = some p → ¬ Turned env t p.2) →
      (∀ p : Str × Json, ms[kvs.length]? = some p → Turned env t p.2) → Remnant env (.map o t) (.obj ms) target (.map (mapOf kvs))
  | dict (t : Ty) (js : List Json) (target : Val) (vs : List Val) : vs.length ≤ js.length →
      (∀ (i : Nat) (j : Json) (v : Val), js[i]? = some j → vs[i]? = some v →
        Remnant env (.tuple [.prim .str, t]) j (env.fresh (.tuple [.prim .str, t])) v) →
      (∀ (i : Nat) (j : Json), i < vs.length → js[i]? = some j → ¬ Turned env (.tuple [.prim .str, t]) j) →
      (∀ j : Json, js[vs.length]? = some j → Turned env (.tuple [.prim .str, t]) j) → Remnant env (.dict t) (.arr js) target (.dict (vs.map dictEntry))
  | tupleLength (ts : List Ty) (js : List Json) (target : Val) : js.length ≠ ts.length → Remnant env (.tuple ts) (.arr js) target target
  | tuple (ts : List Ty) (js : List Json) (target : Val) (vs : List Val) : js.length = ts.length → vs.length = ts.length →
      (∀ (i : Nat) (t : Ty) (j : Json) (v : Val), ts[i]? = some t → js[i]? = some j → vs[i]? = some v →
        Remnant env t j (target.components.getD i (env.fresh t)) v) →
      (∀ (i : Nat) (t : Ty) (j : Json), ts[i]? = some t → js[i]? = some j → ¬ Turned env t j) → Remnant env (.tuple ts) (.arr js) target (.tup vs)
  | tupleRefused (ts : List Ty) (js : List Json) (target : Val) (vs : List Val) (w : Val) (t : Ty) (j : Json) : js.length = ts.length →
      ts[vs.length]? = some t → js[vs.length]? = some j →
      (∀ (i : Nat) (t : Ty) (j : Json) (v : Val), ts[i]? = some t → js[i]? = some j → vs[i]? = some v →
        Remnant env t j (target.components.getD i (env.fresh t)) v) →
      (∀ (i : Nat) (t : Ty) (j : Json), i < vs.length → ts[i]? = some t → js[i]? = some j → ¬ Turned env t j) →
      Turned env t j → Remnant env t j (target.components.getD vs.length (env.fresh t)) w →
      Remnant env (.tuple ts) (.arr js) target (.tup (vs ++ w :: target.components.drop (vs.length + 1)))
  | variant (ts : List Ty) (j : Json) (target : Val) (i : Nat) (t : Ty) (v : Val) : ts[i]? = some t → ¬ Turned env t j →
      (∀ (k : Nat) (t' : Ty), k < i → ts[k]? = some t' → Turned env t' j) → Remnant env t j (env.fresh t) v →
      Remnant env (.variant ts) j target (.alt i v)
  | variantRefused (ts : List Ty) (j : Json) (target : Val) : (∀ t, t ∈ ts → Turned env t j) → Remnant env (.variant ts) j target target
  | cls (c : Nat) (ms : List (Str × Json)) (target : Val) (vs : List Val) (us : Nat → Val) : vs.length = (env.members c).length →
      (∀ (i : Nat) (m : Member) (v : Val) (k : Nat) (j : Json), (env.members c)[i]? = some m → vs[i]? = some v →
        findMember m.name ms = some (k, j) → m.kind ≠ .optional → Remnant env m.ty j (target.members.getD i (env.fresh m.ty)) v) →
      (∀ (i : Nat) (m : Member) (v : Val) (k : Nat) (j : Json), (env.members c)[i]? = some m → vs[i]? = some v →
        findMember m.name ms = some (k, j) → m.kind = .optional → v = .present (us i)) →
      (∀ (i : Nat) (m : Member) (k : Nat) (j : Json), (env.members c)[i]? = some m →
        findMember m.name ms = some (k, j) → m.kind = .optional → Remnant env m.ty j (env.fresh m.ty) (us i)) →
      (∀ (i : Nat) (m : Member) (v : Val), (env.members c)[i]? = some m → vs[i]? = some v → findMember m.name ms = none →
        v = if m.kind = .optional then .absent else target.members.getD i (env.fresh m.ty)) →
      Remnant env (.cls c) (.obj ms) target (.obj vs)
  | uptr (t : Ty) (j : Json) (target v : Val) : ¬ Turned env t j → Remnant env t j (env.ctor t) v → Remnant env (.uptr t) j target (.uptr v)
  | uptrRefused (t : Ty) (j : Json) (target : Val) : Turned env t j → Remnant env (.uptr t) j target target
  | sptr (t : Ty) (j : Json) (target v : Val) (a : Nat) : Remnant env t j (env.ctor t) v → Remnant env (.sptr t) j target (.sptr a v)

/-! ## Elements up to the first refused one -/

/-- `us` are the results for the elements of `xs` in front of the first bad one. -/
def UpTo {α β : Type} (R : α → β → Prop) (Bad : α → Prop) (xs : List α) (us : List β) : Prop :=
  us.length ≤ xs.length ∧ (∀ (i : Nat) (x : α) (u : β), xs[i]? = some x → us[i]? = some u → R x u) ∧
  (∀ (i : Nat) (x : α), i < us.length → xs[i]? = some x → ¬ Bad x) ∧ ∀ x : α, xs[us.length]? = some x → Bad x

theorem UpTo.nil {α β : Type} (R : α → β → Prop) (Bad : α → Prop) : UpTo R Bad [] [] := by simp [UpTo]

theorem UpTo.stop {α β : Type} {R : α → β → Prop} {Bad : α → Prop} {x : α} {xs : List α} (h : Bad x) : UpTo R Bad (x :: xs) [] := by
  simp [UpTo, h]

theorem UpTo.cons {α β : Type} {R : α → β → Prop} {Bad : α → Prop} {x : α} {xs : List α} {u : β} {us : List β} (hr : R x u) (hb : ¬ Bad x)
    (h : UpTo R Bad xs us) : UpTo R Bad (x :: xs) (u :: us) := by
  obtain ⟨h1, h2, h3, h4⟩ := h
  refine ⟨by simpa using h1, ?_, ?_, ?_⟩
  · intro i y v hy hv
    cases i with
    | zero => cases hy; cases hv; exact hr
    | succ i => exact h2 i y v hy hv
  · intro i y hi hy
    cases i with
    | zero => cases hy; exact hb
    | succ i => exact h3 i y (by simpa using hi) hy
  · intro y hy
    exact h4 y (by simpa using hy)

/-- Without a bad element all are there. -/
theorem UpTo.all {α β : Type} {R : α → β → Prop} {Bad : α → Prop} {xs : List α} {us : List β} (h : UpTo R Bad xs us) (hb : ∀ x ∈ xs, ¬ Bad x) :
    us.length = xs.length := by
  obtain ⟨h1, -, -, h4⟩ := h
  refine Nat.le_antisymm h1 (Nat.le_of_not_lt fun hlt => ?_)
  have := List.getElem?_eq_getElem hlt
  exact hb _ (List.getElem_mem hlt) (h4 _ this)

/-- The results are determined. -/
theorem UpTo.unique {α β : Type} {R : α → β → Prop} {Bad : α → Prop} {xs : List α} (hR : ∀ x ∈ xs, ∀ u u', R x u → R x u' → u = u') :
    ∀ {us us' : List β}, UpTo R Bad xs us → UpTo R Bad xs us' → us = us' := by
  induction xs with
  | nil =>
    intro us us' h h'
    have h1 := h.1
    have h2 := h'.1
    cases us <;> cases us' <;> simp_all
  | cons x xs ih =>
    intro us us' h h'
    have tail : ∀ {u : β} {us : List β}, UpTo R Bad (x :: xs) (u :: us) → R x u ∧ ¬ Bad x ∧ UpTo R Bad xs us := by
      rintro u us ⟨h1, h2, h3, h4⟩
      exact ⟨h2 0 x u rfl rfl, h3 0 x (by simp) rfl, by simpa using h1, fun i y v hy hv => h2 (i + 1) y v hy hv,
        fun i y hi hy => h3 (i + 1) y (by simpa using hi) hy, fun y hy => h4 y (by simpa using hy)⟩
    cases us with
    | nil =>
      cases us' with
      | nil => rfl
      | cons u' us' => exact absurd (h.2.2.2 x rfl) (tail h').2.1
    | cons u us =>
      cases us' with
      | nil => exact absurd (h'.2.2.2 x rfl) (tail h).2.1
      | cons u' us' =>
        rw [hR x (by simp) u u' (tail h).1 (tail h').1, ih (fun y hy => hR y (by simp [hy])) (tail h).2.2 (tail h').2.2]

/-! ## The reader -/

/-- The reader of `j` as a `t` returns, judges as specified, and leaves what is specified. -/
def Left (env : Env) (j : Json) (t : Ty) : Prop :=
  ∀ root target loc segs st, ∃ ok w st', deser env root j false t target loc segs st = .done ok w st' ∧ (ok = false ↔ Turned env t j) ∧
    Remnant env t j target w

theorem lower_same_list (ts : List Ty) (h : ∀ t ∈ ts, t.lower = t) : Ty.lowers ts = ts := by
  rw [lowers_map]
  exact (List.map_congr_left h).trans (List.map_id' ts)

/-- `Ty.lower` changes nothing where there is no shared pointer. -/
theorem lower_same : ∀ t : Ty, t.unshared = true → t.lower = t
  | .prim _, _ => rfl
  | .vec t, h => by rw [Ty.lower, lower_same t h]
  | .arr _ t, h => by rw [Ty.lower, lower_same t h]
  | .set t, h => by rw [Ty.lower, lower_same t h]
  | .map _ t, h => by rw [Ty.lower, lower_same t h]
  | .dict t, h => by rw [Ty.lower, lower_same t h]
  | .tuple ts, h => by
      rw [Ty.lower, lower_same_list ts fun t ht => lower_same t ((Ty.unshareds_iff ts).1 h t ht)]
  | .variant ts, h => by
      rw [Ty.lower, lower_same_list ts fun t ht => lower_same t ((Ty.unshareds_iff ts).1 h t ht)]
  | .cls _, _ => rfl
  | .uptr t, h => by rw [Ty.lower, lower_same t h]
  | .sptr _, h => by simp [Ty.unshared] at h
termination_by t => sizeOf t
decreasing_by all_goals (first | (have := List.sizeOf_lt_of_mem ht; simp; omega) | simp)

theorem Env.lower_same {env : Env} (hu : env.Unshared) : env.lower = env := by
  have : (fun c => { env.classes c with members := (env.classes c).members.map Member.lower }) = env.classes := by
    funext c
    have : (env.classes c).members.map Member.lower = (env.classes c).members :=
      (List.map_congr_left fun m hm => show Member.lower m = m by
        simp only [Member.lower, Core.lower_same m.ty (hu c m hm)]).trans (List.map_id' _)
    rw [this]
  rw [Env.lower, this]

theorem turned_unshared {env : Env} (hu : env.Unshared) {t : Ty} (ht : t.unshared = true) (j : Json) : Turned env t j ↔ Refused env false t j := by
  rw [Turned, Env.lower_same hu, lower_same t ht]

/-- There are no references: none in the document, or the type has no shared pointers. -/
def Plainly (env : Env) (j : Json) (t : Ty) : Prop := j.noRef ∨ (env.Unshared ∧ t.unshared = true)

/-- The verdict of the reader. -/
theorem turned (env : Env) (j : Json) (t : Ty) (hn : Plainly env j t) (hc : Calm env j) (root : Json) (target : Val) (loc : Loc) (segs : List Seg)
    (st : DState) : ∃ ok w st', deser env root j false t target loc segs st = .done ok w st' ∧ (ok = false ↔ Turned env t j) := by
  have h1 : (deser env root j false t target loc segs st).verdict = (deser env.lower root j false t.lower target loc segs st).verdict := by
    rcases hn with hn | ⟨hu, ht⟩
    · exact sameVerdict env j t hn false target target segs root root loc loc st st
    · rw [Env.lower_same hu, lower_same t ht]
  have hfree := free env.lower (lower_env_unshared env) j t.lower (lower_unshared t) false target segs root loc st
  rw [hfree] at h1
  rcases judged env.lower (lower_env_unshared env) j t.lower (lower_unshared t) ((calm_lower env j).2 hc) false with ⟨h2, h3⟩ | ⟨h2, h3⟩
  · obtain ⟨a, ha⟩ := (h3 target segs).done
    rw [ha] at h1
    cases hd : deser env root j false t target loc segs st with
    | ub => rw [hd] at h1; cases h1
    | threw s e => rw [hd] at h1; cases h1
    | done ok w st' =>
      rw [hd] at h1
      cases h1
      exact ⟨false, w, st', rfl, by simp [Turned, h2]⟩
  · obtain ⟨a, ha⟩ := h3 target segs
    rw [ha] at h1
    cases hd : deser env root j false t target loc segs st with
    | ub => rw [hd] at h1; cases h1
    | threw s e => rw [hd] at h1; cases h1
    | done ok w st' =>
      rw [hd] at h1
      cases h1
      exact ⟨true, w, st', rfl, by simp [Turned, h2]⟩

/-- The reader judges as specified; it is left to show what it leaves. -/
theorem Left.of {env : Env} {j : Json} {t : Ty} (hn : Plainly env j t) (hc : Calm env j)
    (h : ∀ root target loc segs st ok w st', deser env root j false t target loc segs st = .done ok w st' → Remnant env t j target w) : Left env j t := by
  intro root target loc segs st
  obtain ⟨ok, w, st', h1, h2⟩ := turned env j t hn hc root target loc segs st
  exact ⟨ok, w, st', h1, h2, h root target loc segs st ok w st' h1⟩

theorem Left.done {env : Env} {j : Json} {t : Ty} (h : Left env j t) {root : Json} {target : Val} {loc : Loc} {segs : List Seg} {st : DState}
    {ok : Bool} {w : Val} {st' : DState} (hd : deser env root j false t target loc segs st = .done ok w st') :
    (ok = false ↔ Turned env t j) ∧ Remnant env t j target w := by
  obtain ⟨ok', w', st'', h1, h2, h3⟩ := h root target loc segs st
  rw [hd] at h1
  cases h1
  exact ⟨h2, h3⟩

theorem runSame_left (env : Env) (root : Json) (t : Ty) (js : List Json) (h : ∀ j ∈ js, Left env j t) :
    ∀ k loc segs st, ∃ ok vs st', runSame env t false (js.map (deser env root)) k loc segs st = .done ok vs st' ∧
      (ok = false ↔ ∃ j ∈ js, Turned env t j) ∧ UpTo (fun j v => Remnant env t j (env.fresh t) v) (Turned env t) js vs := by
  induction js with
  | nil => intro k loc segs st; exact ⟨true, [], st, rfl, by simp, .nil _ _⟩
  | cons j js ih =>
    intro k loc segs st
    obtain ⟨ok, w, st', h1, h2, h3⟩ := h j (by simp) root (env.fresh t) (k :: loc) (.index k :: segs) st
    simp only [List.map_cons, runSame, h1]
    cases ok with
    | false => exact ⟨false, [], st', rfl, by simp [h2.1 rfl], .stop (h2.1 rfl)⟩
    | true =>
      have hb : ¬ Turned env t j := fun hb => by cases h2.2 hb
      obtain ⟨ok, vs, st'', h4, h5, h6⟩ := ih (fun j hj => h j (by simp [hj])) (k + 1) loc segs st'
      simp only [h4]
      exact ⟨ok, w :: vs, st'', rfl, by simp [h5, hb], h6.cons h3 hb⟩

theorem runEntries_left (env : Env) (root : Json) (t : Ty) (ms : List (Str × Json)) (h : ∀ p ∈ ms, Left env p.2 t) :
    ∀ k loc segs st, ∃ ok kvs st', runEntries env t false (ms.map fun p => (p.1, deser env root p.2)) k loc segs st = .done ok kvs st' ∧
      UpTo (fun (p : Str × Json) (q : Str × Val) => q.1 = cstr p.1 ∧ Remnant env t p.2 (env.fresh t) q.2) (fun p => Turned env t p.2) ms kvs := by
  induction ms with
  | nil => intro k loc segs st; exact ⟨true, [], st, rfl, .nil _ _⟩
  | cons p ms ih =>
    intro k loc segs st
    obtain ⟨ok, w, st', h1, h2, h3⟩ := h p (by simp) root (env.fresh t) (k :: loc) (Seg.name (cstr p.1) :: segs) st
    simp only [List.map_cons, runEntries, h1]
    cases ok with
    | false => exact ⟨false, [], st', rfl, .stop (h2.1 rfl)⟩
    | true =>
      have hb : ¬ Turned env t p.2 := fun hb => by cases h2.2 hb
      obtain ⟨ok, kvs, st'', h4, h6⟩ := ih (fun j hj => h j (by simp [hj])) (k + 1) loc segs st'
      simp only [h4]
      exact ⟨ok, (cstr p.1, w) :: kvs, st'', rfl, h6.cons ⟨rfl, h3⟩ hb⟩

theorem getD_succ_tail (l : List Val) (i : Nat) (d : Val) : l.tail.getD i d = l.getD (i + 1) d := by
  cases l <;> simp

theorem getD_zero_head (l : List Val) (d : Val) : l.headD d = l.getD 0 d := by
  cases l <;> simp

/-- What `runTuple` leaves. -/
def TupleEnd (env : Env) (ts : List Ty) (js : List Json) (targets us : List Val) : Prop :=
  (us.length = ts.length ∧ (∀ (i : Nat) (t : Ty) (j : Json) (v : Val), ts[i]? = some t → js[i]? = some j → us[i]? = some v →
      Remnant env t j (targets.getD i (env.fresh t)) v) ∧
    ∀ (i : Nat) (t : Ty) (j : Json), ts[i]? = some t → js[i]? = some j → ¬ Turned env t j) ∨
  ∃ (vs : List Val) (w : Val) (t : Ty) (j : Json), us = vs ++ w :: targets.drop (vs.length + 1) ∧ ts[vs.length]? = some t ∧ js[vs.length]? = some j ∧
    (∀ (i : Nat) (t : Ty) (j : Json) (v : Val), ts[i]? = some t → js[i]? = some j → vs[i]? = some v →
      Remnant env t j (targets.getD i (env.fresh t)) v) ∧
    (∀ (i : Nat) (t : Ty) (j : Json), i < vs.length → ts[i]? = some t → js[i]? = some j → ¬ Turned env t j) ∧
    Turned env t j ∧ Remnant env t j (targets.getD vs.length (env.fresh t)) w

theorem runTuple_left (env : Env) (root : Json) (js : List Json) : ∀ ts : List Ty, js.length = ts.length → (∀ j ∈ js, ∀ t ∈ ts, Left env j t) →
    ∀ targets k loc segs st, ∃ ok us st', runTuple env false (js.map (deser env root)) ts targets k loc segs st = .done ok us st' ∧
      TupleEnd env ts js targets us := by
  induction js with
  | nil =>
    intro ts hl h targets k loc segs st
    cases ts with
    | nil => exact ⟨true, [], st, rfl, .inl ⟨rfl, by simp, by simp⟩⟩
    | cons t ts => cases hl
  | cons j js ih =>
    intro ts hl h targets k loc segs st
    cases ts with
    | nil => cases hl
    | cons t ts =>
      obtain ⟨ok, w, st', h1, h2, h3⟩ := h j (by simp) t (by simp) root (targets.headD (env.fresh t)) (k :: loc) (.index k :: segs) st
      simp only [List.map_cons, runTuple, h1]
      rw [getD_zero_head] at h3
      cases ok with
      | false =>
        refine ⟨false, w :: targets.tail, st', rfl, .inr ⟨[], w, t, j, by simp, rfl, rfl, by simp, by simp, h2.1 rfl, h3⟩⟩
      | true =>
        have hb : ¬ Turned env t j := fun hb => by cases h2.2 hb
        obtain ⟨ok, us, st'', h4, h5⟩ := ih ts (by simpa using hl) (fun j hj t ht => h j (by simp [hj]) t (by simp [ht])) targets.tail (k + 1) loc segs st'
        simp only [h4]
        refine ⟨ok, w :: us, st'', rfl, ?_⟩
        have step : ∀ vs : List Val, (∀ (i : Nat) (t : Ty) (j : Json) (v : Val), ts[i]? = some t → js[i]? = some j → vs[i]? = some v →
              Remnant env t j (targets.tail.getD i (env.fresh t)) v) →
            ∀ (i : Nat) (t' : Ty) (j' : Json) (v : Val), (t :: ts)[i]? = some t' → (j :: js)[i]? = some j' → (w :: vs)[i]? = some v →
              Remnant env t' j' (targets.getD i (env.fresh t')) v := by
          intro vs hvs i t' j' v ht hj hv
          cases i with
          | zero => cases ht; cases hj; cases hv; exact h3
          | succ i => rw [← getD_succ_tail]; exact hvs i t' j' v ht hj hv
        rcases h5 with ⟨e1, e2, e3⟩ | ⟨vs, w', t', j', e1, e2, e3, e4, e5, e6, e7⟩
        · refine .inl ⟨by simp [e1], step us e2, ?_⟩
          intro i t' j' ht hj
          cases i with
          | zero => cases ht; cases hj; exact hb
          | succ i => exact e3 i t' j' ht hj
        · refine .inr ⟨w :: vs, w', t', j', ?_, e2, e3, step vs e4, ?_, e6, ?_⟩
          · rw [e1]
            simp
          · intro i t' j' hi ht hj
            cases i with
            | zero => cases ht; cases hj; exact hb
            | succ i => exact e5 i t' j' (by simpa using hi) ht hj
          · rw [getD_succ_tail] at e7
            exact e7

/-- What `runMembers` leaves. -/
def MembersEnd (env : Env) (fs : List (Str × Json)) (ms : List Member) (targets vs : List Val) : Prop :=
  vs.length = ms.length ∧ ∀ (i : Nat) (m : Member) (v : Val), ms[i]? = some m → vs[i]? = some v →
    (∀ (k : Nat) (j : Json), findMember m.name fs = some (k, j) →
      if m.kind = .optional then ∃ u, v = .present u ∧ Remnant env m.ty j (env.fresh m.ty) u
      else Remnant env m.ty j (targets.getD i (env.fresh m.ty)) v) ∧
    (findMember m.name fs = none → v = if m.kind = .optional then .absent else targets.getD i (env.fresh m.ty))

theorem MembersEnd.cons {env : Env} {fs : List (Str × Json)} {m : Member} {ms : List Member} {targets : List Val} {v : Val} {vs : List Val}
    (h1 : ∀ (k : Nat) (j : Json), findMember m.name fs = some (k, j) →
      if m.kind = .optional then ∃ u, v = .present u ∧ Remnant env m.ty j (env.fresh m.ty) u
      else Remnant env m.ty j (targets.headD (env.fresh m.ty)) v)
    (h2 : findMember m.name fs = none → v = if m.kind = .optional then .absent else targets.headD (env.fresh m.ty))
    (h : MembersEnd env fs ms targets.tail vs) : MembersEnd env fs (m :: ms) targets (v :: vs) := by
  refine ⟨by simp [h.1], fun i m' v' hm hv => ?_⟩
  cases i with
  | zero => cases hm; cases hv; rw [← getD_zero_head]; exact ⟨h1, h2⟩
  | succ i => rw [← getD_succ_tail]; exact h.2 i m' v' hm hv

theorem runMembers_left (env : Env) (root : Json) (fs : List (Str × Json)) (loc : Loc) (segs : List Seg) (ms : List Member)
    (h : ∀ m ∈ ms, ∀ k j, findMember m.name fs = some (k, j) → Left env j m.ty) : ∀ targets res st, ∃ ok vs st',
    runMembers env false (fs.map fun p => (p.1, deser env root p.2)) loc segs ms targets res st = .done ok vs st' ∧ MembersEnd env fs ms targets vs := by
  induction ms with
  | nil => intro targets res st; exact ⟨res, [], st, rfl, rfl, by simp⟩
  | cons m ms ih =>
    intro targets res st
    simp only [runMembers, findMember_map]
    cases hf : findMember m.name fs with
    | none =>
      simp only [Option.map_none]
      have ih' := ih (fun m hm => h m (by simp [hm])) targets.tail
      cases hk : m.kind with
      | optional =>
        obtain ⟨ok, vs, st', h1, h2⟩ := ih' res st
        exact ⟨ok, _ :: vs, st', by simp only [h1]; rfl, .cons (by simp [hf]) (by simp [hk]) h2⟩
      | default =>
        obtain ⟨ok, vs, st', h1, h2⟩ := ih' res st
        exact ⟨ok, _ :: vs, st', by simp only [h1]; rfl, .cons (by simp [hf]) (by simp [hk]) h2⟩
      | required =>
        obtain ⟨ok, vs, st', h1, h2⟩ := ih' false st
        exact ⟨ok, _ :: vs, st', by simp only [h1]; rfl, .cons (by simp [hf]) (by simp [hk]) h2⟩
    | some p =>
      obtain ⟨k, j⟩ := p
      simp only [Option.map_some]
      obtain ⟨ok, w, st', h1, -, h3⟩ := h m (by simp) k j hf root (if m.kind = .optional then env.fresh m.ty else targets.headD (env.fresh m.ty)) (k :: loc)
        (Seg.name (cstr m.name) :: segs) st
      obtain ⟨ok', vs, st'', h4, h5⟩ := ih (fun m hm => h m (by simp [hm])) targets.tail ok st'
      refine ⟨ok', _ :: vs, st'', by simp only [h1, h4]; rfl, .cons ?_ (by simp [hf]) h5⟩
      intro k' j' hf'
      rw [hf] at hf'
      cases hf'
      by_cases hk : m.kind = .optional
      · rw [if_pos hk] at h3 ⊢
        exact ⟨w, by rw [if_pos hk], h3⟩
      · rw [if_neg hk] at h3 ⊢
        rw [if_neg hk]
        exact h3

theorem tryAll_left (env : Env) (root j : Json) (ts : List Ty) (h : ∀ t ∈ ts, Left env j t) : ∀ i loc segs st, ∃ ok w st',
    tryAll env root j ts i loc segs st = .done ok w st' ∧
      ((ok = false ∧ ∀ t ∈ ts, Turned env t j) ∨
       (ok = true ∧ ∃ (k : Nat) (t : Ty) (v : Val), w = .alt (i + k) v ∧ ts[k]? = some t ∧ ¬ Turned env t j ∧
        (∀ (k' : Nat) (t' : Ty), k' < k → ts[k']? = some t' → Turned env t' j) ∧ Remnant env t j (env.fresh t) v)) := by
  induction ts with
  | nil => intro i loc segs st; exact ⟨false, .nullptr, st, rfl, .inl ⟨rfl, by simp⟩⟩
  | cons t ts ih =>
    intro i loc segs st
    obtain ⟨ok, w, st', h1, h2, h3⟩ := h t (by simp) root (env.fresh t) loc segs st
    simp only [tryAll, h1]
    cases ok with
    | true =>
      have hb : ¬ Turned env t j := fun hb => by cases h2.2 hb
      exact ⟨true, .alt i w, st', rfl, .inr ⟨rfl, 0, t, w, rfl, rfl, hb, fun k' t' hk => by omega, h3⟩⟩
    | false =>
      obtain ⟨ok, w', st'', h4, h5⟩ := ih (fun t ht => h t (by simp [ht])) (i + 1) loc segs st'
      refine ⟨ok, w', st'', h4, ?_⟩
      rcases h5 with ⟨e1, e2⟩ | ⟨e1, k, t', v, e2, e3, e4, e5, e6⟩
      · exact .inl ⟨e1, by simpa [h2.1 rfl] using e2⟩
      · refine .inr ⟨e1, k + 1, t', v, by rw [e2]; congr 1; omega, e3, e4, ?_, e6⟩
        intro k' t'' hk ht
        cases k' with
        | zero => cases ht; exact h2.1 rfl
        | succ k' => exact e5 k' t'' (by omega) ht

/-- The reader leaves what is specified. -/
theorem remnant (env : Env) : ∀ j t, Plainly env j t → Calm env j → Left env j t := by
  apply lexInd
  intro j t ihj iht hn hc
  apply Left.of hn hc
  intro root target loc segs st ok w st' hd
  have same : ∀ js t', j = .arr js → (t.unshared = true → t'.unshared = true) → ∀ j ∈ js, Left env j t' := by
    rintro js t' rfl hs j hj
    exact ihj j (size_item hj) t' (hn.imp (fun hn => noRef_item hn hj) fun ⟨hu, ht⟩ => ⟨hu, hs ht⟩) (hc.item hj)
  have rejected : ∀ {e : Err} {tg : Val}, DRes.reject false segs e tg st = .done ok w st' → w = tg := by
    intro e tg h
    simp only [DRes.reject, Bool.false_eq_true, if_false, DRes.done.injEq] at h
    exact h.2.1.symm
  cases t with
  | prim p =>
    rw [deser_prim] at hd
    cases hp : desPrim env p j with
    | ub => exact absurd hp (desPrim_calm env p j hc)
    | ok pv =>
      rw [hp] at hd
      cases hd
      exact .prim p j target pv ((desPrim_ok env p j pv).1 hp)
    | reject e =>
      rw [hp] at hd
      rw [rejected hd]
      have hno : ∀ pv, ¬ LeafReads env p j pv := fun pv h => by rw [← desPrim_ok, hp] at h; cases h
      have hl : spoil p j target = leafLeft p j target := by
        unfold spoil leafLeft
        split
        · rename_i s
          have : Base64.decode s = none := by
            cases hs : Base64.decode s with
            | none => rfl
            | some bs => exact absurd (LeafReads.bytes s bs hs) (hno _)
          rw [Base64.decodeOut_none this]
        · rename_i hx
          split
          · exact absurd rfl (hx _ rfl)
          · rfl
      rw [hl]
      exact .leaf p j target hno
  | vec t =>
    rw [deser_vec] at hd
    cases j with
    | arr js =>
      obtain ⟨ok', vs, st'', h1, -, h3⟩ := runSame_left env root t js (same js t rfl id) 0 loc segs st
      simp only [h1, DRes.map, DRes.done.injEq] at hd
      rw [← hd.2.1]
      exact .vec t js target vs h3.1 h3.2.1 h3.2.2.1 h3.2.2.2
    | _ => rw [rejected hd]; exact .array _ _ _ rfl (by simp)
  | arr n t =>
    rw [deser_arr] at hd
    cases j with
    | arr js =>
      by_cases hl : js.length = n
      · obtain ⟨ok', vs, st'', h1, h2, h3⟩ := runSame_left env root t js (same js t rfl id) 0 loc segs st
        simp only [if_pos hl, h1] at hd
        cases ok' with
        | false =>
          simp only [DRes.done.injEq] at hd
          rw [← hd.2.1]
          exact .arrRefused n t js target (.inr (h2.1 rfl))
        | true =>
          simp only [DRes.done.injEq] at hd
          rw [← hd.2.1]
          have hb : ∀ j ∈ js, ¬ Turned env t j := fun j hj hb => by cases h2.2 ⟨j, hj, hb⟩
          exact .arr n t js target vs hl ((h3.all hb).trans hl) h3.2.1 hb
      · simp only [if_neg hl] at hd
        rw [rejected hd]
        exact .arrRefused n t js target (.inl hl)
    | _ => rw [rejected hd]; exact .array _ _ _ rfl (by simp)
  | set t =>
    rw [deser_set] at hd
    cases j with
    | arr js =>
      obtain ⟨ok', vs, st'', h1, -, h3⟩ := runSame_left env root t js (same js t rfl id) 0 loc segs st
      simp only [h1, DRes.map, DRes.done.injEq] at hd
      rw [← hd.2.1]
      exact .set t js target vs h3.1 h3.2.1 h3.2.2.1 h3.2.2.2
    | _ => rw [rejected hd]; exact .array _ _ _ rfl (by simp)
  | map o t =>
    rw [deser_map] at hd
    cases j with
    | obj ms =>
      obtain ⟨ok', kvs, st'', h1, h3⟩ := runEntries_left env root t ms
        (fun p hp => ihj p.2 (size_field hp) t (hn.imp (fun hn => noRef_field hn hp) id) (hc.field hp)) 0 loc segs st
      simp only [h1, DRes.map, DRes.done.injEq] at hd
      rw [← hd.2.1]
      exact .map o t ms target kvs h3.1 (fun i p q hp hq => (h3.2.1 i p q hp hq).1) (fun i p q hp hq => (h3.2.1 i p q hp hq).2) h3.2.2.1 h3.2.2.2
    | _ => rw [rejected hd]; exact .object _ _ _ rfl (by simp)
  | dict t =>
    rw [deser_dict] at hd
    cases j with
    | arr js =>
      obtain ⟨ok', vs, st'', h1, -, h3⟩ := runSame_left env root (.tuple [.prim .str, t]) js (same js _ rfl (by simp [Ty.unshared, Ty.unshareds])) 0 loc segs st
      simp only [h1, DRes.map, DRes.done.injEq] at hd
      rw [← hd.2.1]
      exact .dict t js target vs h3.1 h3.2.1 h3.2.2.1 h3.2.2.2
    | _ => rw [rejected hd]; exact .array _ _ _ rfl (by simp)
  | tuple ts =>
    rw [deser_tuple] at hd
    cases j with
    | arr js =>
      by_cases hl : js.length = ts.length
      · obtain ⟨ok', us, st'', h1, h2⟩ := runTuple_left env root js ts hl (fun j hj t htm => same js t rfl (fun h => (Ty.unshareds_iff ts).1 h t htm) j hj) target.components 0 loc segs st
        simp only [if_pos hl, h1, DRes.map, DRes.done.injEq] at hd
        rw [← hd.2.1]
        rcases h2 with ⟨e1, e2, e3⟩ | ⟨vs, w', t', j', e1, e2, e3, e4, e5, e6, e7⟩
        · exact .tuple ts js target us hl e1 e2 e3
        · rw [e1]
          exact .tupleRefused ts js target vs w' t' j' hl e2 e3 e4 e5 e6 e7
      · simp only [if_neg hl] at hd
        rw [rejected hd]
        exact .tupleLength ts js target hl
    | _ => rw [rejected hd]; exact .array _ _ _ rfl (by simp)
  | variant ts =>
    obtain ⟨ok', v, st'', h1, h2⟩ := tryAll_left env root j ts (fun t htm => iht t (size_alt htm) (hn.imp id fun ⟨hu, ht⟩ => ⟨hu, (Ty.unshareds_iff ts).1 ht t htm⟩) hc) 0 loc segs st
    rw [deser_variant, h1] at hd
    rcases h2 with ⟨rfl, h2⟩ | ⟨rfl, k, t, v', e2, e3, e4, e5, e6⟩
    · simp only [DRes.reject, Bool.false_eq_true, if_false, DRes.done.injEq] at hd
      rw [← hd.2.1]
      exact .variantRefused ts j target h2
    · simp only [DRes.done.injEq] at hd
      rw [← hd.2.1, e2, Nat.zero_add]
      exact .variant ts j target k t v' e3 e4 e5 e6
  | cls c =>
    rw [deser_cls] at hd
    cases j with
    | obj ms =>
      obtain ⟨ok', vs, st'', h1, h2, h3⟩ := runMembers_left env root ms loc segs (env.members c)
        (fun m hm k j hf => ihj j (size_field (findMember_mem hf)) m.ty (hn.imp (fun hn => noRef_field hn (findMember_mem hf)) fun ⟨hu, _⟩ => ⟨hu, hu c m hm⟩)
          (hc.field (findMember_mem hf)))
        target.members true st
      simp only [h1, DRes.map, DRes.done.injEq] at hd
      rw [← hd.2.1]
      refine .cls c ms target vs (fun i => match vs[i]? with | some (.present u) => u | _ => .nullptr) h2 ?_ ?_ ?_ (fun i m v hm hv => (h3 i m v hm hv).2)
      · intro i m v k j hm hv hf hk
        have := (h3 i m v hm hv).1 k j hf
        rwa [if_neg hk] at this
      · intro i m v k j hm hv hf hk
        have := (h3 i m v hm hv).1 k j hf
        rw [if_pos hk] at this
        obtain ⟨u, rfl, -⟩ := this
        simp [hv]
      · intro i m k j hm hf hk
        have hi : i < vs.length := by rw [h2]; exact (List.getElem?_eq_some_iff.1 hm).1
        have hv := List.getElem?_eq_getElem hi
        have := (h3 i m _ hm hv).1 k j hf
        rw [if_pos hk] at this
        obtain ⟨u, hu, hr⟩ := this
        rw [hu] at hv
        simp only [hv]
        exact hr
    | _ => rw [rejected hd]; exact .object _ _ _ rfl (by simp)
  | uptr t =>
    obtain ⟨ok', v, st'', h1, h2, h3⟩ := iht t (by simp) hn hc root (env.ctor t) loc segs st
    rw [deser_uptr, h1] at hd
    cases ok' with
    | false =>
      simp only [DRes.done.injEq] at hd
      rw [← hd.2.1]
      exact .uptrRefused t j target (h2.1 rfl)
    | true =>
      simp only [DRes.done.injEq] at hd
      rw [← hd.2.1]
      exact .uptr t j target v (fun hb => by cases h2.2 hb) h3
  | sptr t =>
    have hn : j.noRef := hn.resolve_right fun ⟨_, h⟩ => by simp [Ty.unshared] at h
    obtain ⟨ok', v, st'', h1, h2, h3⟩ := iht t (by simp) (.inl hn) hc root (env.ctor t) loc segs { st with next := st.next + 1 }
    rw [deser_sptr, noRef_refMember hn] at hd
    simp only [h1] at hd
    cases ok' with
    | false =>
      simp only [DRes.done.injEq] at hd
      rw [← hd.2.1]
      exact .sptr t j target v _ h3
    | true =>
      simp only [DRes.done.injEq] at hd
      rw [← hd.2.1]
      exact .sptr t j target v _ h3

/-! ## There is only one -/

/-- What is left is determined for types without shared pointers. -/
theorem remnant_unique (env : Env) (hu : env.Unshared) : ∀ j t, t.unshared = true → ∀ target w w', Remnant env t j target w → Remnant env t j target w' → w = w' := by
  apply lexInd
  intro j t ihj iht ht target w w' h h'
  have list : ∀ {js : List Json} {t : Ty} {vs vs' : List Val}, j = .arr js → t.unshared = true →
      UpTo (fun j v => Remnant env t j (env.fresh t) v) (Turned env t) js vs → UpTo (fun j v => Remnant env t j (env.fresh t) v) (Turned env t) js vs' → vs = vs' := by
    rintro js t vs vs' rfl ht h h'
    exact UpTo.unique (fun j hj u u' => ihj j (size_item hj) t ht _ u u') h h'
  cases t with
  | prim p =>
    cases h with
    | prim _ _ _ pv h =>
      cases h' with
      | prim _ _ _ pv' h' =>
        have e1 := (desPrim_ok env p j pv).2 h
        have e2 := (desPrim_ok env p j pv').2 h'
        rw [e1] at e2
        cases e2
        rfl
      | leaf _ _ _ h' => exact absurd h (h' pv)
      | array _ _ _ h' => cases h'
      | object _ _ _ h' => cases h'
    | leaf _ _ _ h =>
      cases h' with
      | prim _ _ _ pv' h' => exact absurd h' (h pv')
      | leaf => rfl
      | array _ _ _ h' => cases h'
      | object _ _ _ h' => cases h'
    | array _ _ _ h => cases h
    | object _ _ _ h => cases h
  | vec t =>
    cases h with
    | array _ _ _ _ h =>
      cases h' with
      | array => rfl
      | object => rfl
      | vec => exact absurd rfl (h _)
    | object _ _ _ h => cases h
    | vec _ js _ vs a1 a2 a3 a4 =>
      cases h' with
      | array _ _ _ _ h => exact absurd rfl (h _)
      | object _ _ _ h => cases h
      | vec _ _ _ vs' b1 b2 b3 b4 => rw [list (t := t) rfl ht ⟨a1, a2, a3, a4⟩ ⟨b1, b2, b3, b4⟩]
  | set t =>
    cases h with
    | array _ _ _ _ h =>
      cases h' with
      | array => rfl
      | object => rfl
      | set => exact absurd rfl (h _)
    | object _ _ _ h => cases h
    | set _ js _ vs a1 a2 a3 a4 =>
      cases h' with
      | array _ _ _ _ h => exact absurd rfl (h _)
      | object _ _ _ h => cases h
      | set _ _ _ vs' b1 b2 b3 b4 => rw [list (t := t) rfl ht ⟨a1, a2, a3, a4⟩ ⟨b1, b2, b3, b4⟩]
  | dict t =>
    have ht' : (Ty.tuple [.prim .str, t]).unshared = true := by simpa [Ty.unshared, Ty.unshareds] using ht
    cases h with
    | array _ _ _ _ h =>
      cases h' with
      | array => rfl
      | object => rfl
      | dict => exact absurd rfl (h _)
    | object _ _ _ h => cases h
    | dict _ js _ vs a1 a2 a3 a4 =>
      cases h' with
      | array _ _ _ _ h => exact absurd rfl (h _)
      | object _ _ _ h => cases h
      | dict _ _ _ vs' b1 b2 b3 b4 => rw [list (t := .tuple [.prim .str, t]) rfl ht' ⟨a1, a2, a3, a4⟩ ⟨b1, b2, b3, b4⟩]
  | arr n t =>
    cases h with
    | array _ _ _ _ h =>
      cases h' with
      | array => rfl
      | object => rfl
      | arr => exact absurd rfl (h _)
      | arrRefused => rfl
    | object _ _ _ h => cases h
    | arrRefused _ _ _ _ h =>
      cases h' with
      | array => rfl
      | object => rfl
      | arrRefused => rfl
      | arr _ _ _ _ vs b1 b2 b3 b4 =>
        rcases h with h | ⟨x, hx, h⟩
        · exact absurd b1 h
        · exact absurd h (b4 x hx)
    | arr _ _ js _ vs a1 a2 a3 a4 =>
      cases h' with
      | array _ _ _ _ h => exact absurd rfl (h _)
      | object _ _ _ h => cases h
      | arrRefused _ _ _ _ h =>
        rcases h with h | ⟨x, hx, h⟩
        · exact absurd a1 h
        · exact absurd h (a4 x hx)
      | arr _ _ _ _ vs' b1 b2 b3 b4 =>
        have full : ∀ {vs : List Val}, vs.length = n → (∀ (i : Nat) (j : Json) (v : Val), js[i]? = some j → vs[i]? = some v → Remnant env t j (env.fresh t) v) →
            UpTo (fun j v => Remnant env t j (env.fresh t) v) (Turned env t) js vs := fun {vs} hl hr =>
          ⟨by omega, hr, fun i j hi hj => a4 j (List.mem_of_getElem? hj), fun j hj => by
            rw [List.getElem?_eq_none (by omega)] at hj; cases hj⟩
        rw [list (t := t) rfl ht (full a2 a3) (full b2 b3)]
  | map o t =>
    cases h with
    | object _ _ _ _ h =>
      cases h' with
      | array => rfl
      | object => rfl
      | map => exact absurd rfl (h _)
    | array _ _ _ h => cases h
    | map _ _ ms _ kvs a1 a2 a3 a4 a5 =>
      cases h' with
      | object _ _ _ _ h => exact absurd rfl (h _)
      | array _ _ _ h => cases h
      | map _ _ _ _ kvs' b1 b2 b3 b4 b5 =>
        have : kvs = kvs' := UpTo.unique (R := fun (p : Str × Json) (q : Str × Val) => q.1 = cstr p.1 ∧ Remnant env t p.2 (env.fresh t) q.2)
          (Bad := fun p => Turned env t p.2) (xs := ms)
          (fun p hp u u' hu hu' => Prod.ext (hu.1.trans hu'.1.symm) (ihj p.2 (size_field hp) t ht _ _ _ hu.2 hu'.2))
          ⟨a1, fun i p q hp hq => ⟨a2 i p q hp hq, a3 i p q hp hq⟩, a4, a5⟩ ⟨b1, fun i p q hp hq => ⟨b2 i p q hp hq, b3 i p q hp hq⟩, b4, b5⟩
        rw [this]
  | tuple ts =>
    have hts := (Ty.unshareds_iff ts).1 ht
    have pref : ∀ {js : List Json} {vs vs' : List Val}, j = .arr js → js.length = ts.length → vs.length = vs'.length → vs.length ≤ ts.length →
        (∀ (i : Nat) (t : Ty) (j : Json) (v : Val), ts[i]? = some t → js[i]? = some j → vs[i]? = some v → Remnant env t j (target.components.getD i (env.fresh t)) v) →
        (∀ (i : Nat) (t : Ty) (j : Json) (v : Val), ts[i]? = some t → js[i]? = some j → vs'[i]? = some v → Remnant env t j (target.components.getD i (env.fresh t)) v) →
        vs = vs' := by
      rintro js vs vs' rfl hl hv hle h h'
      refine List.ext_getElem hv fun i h1 h2 => ?_
      have et := List.getElem?_eq_getElem (l := ts) (show i < ts.length by omega)
      have ej := List.getElem?_eq_getElem (l := js) (show i < js.length by omega)
      exact ihj _ (size_item (List.mem_of_getElem? ej)) _ (hts _ (List.mem_of_getElem? et)) _ _ _ (h i _ _ _ et ej (List.getElem?_eq_getElem h1))
        (h' i _ _ _ et ej (List.getElem?_eq_getElem h2))
    have lt : ∀ {i : Nat} {t : Ty}, ts[i]? = some t → i < ts.length := fun h => (List.getElem?_eq_some_iff.1 h).1
    cases h with
    | array _ _ _ _ h =>
      cases h' with
      | array => rfl
      | object => rfl
      | tupleLength => rfl
      | tuple => exact absurd rfl (h _)
      | tupleRefused => exact absurd rfl (h _)
    | object _ _ _ h => cases h
    | tupleLength _ _ _ h =>
      cases h' with
      | array => rfl
      | object => rfl
      | tupleLength => rfl
      | tuple _ _ _ _ h1 => exact absurd h1 h
      | tupleRefused _ _ _ _ _ _ _ h1 => exact absurd h1 h
    | tuple _ js _ vs a1 a2 a3 a4 =>
      cases h' with
      | array _ _ _ _ h => exact absurd rfl (h _)
      | object _ _ _ h => cases h
      | tupleLength _ _ _ h => exact absurd a1 h
      | tuple _ _ _ vs' b1 b2 b3 b4 => rw [pref rfl a1 (a2.trans b2.symm) (by omega) a3 b3]
      | tupleRefused _ _ _ vs' x t' j' b1 b2 b3 b4 b5 b6 b7 => exact absurd b6 (a4 _ _ _ b2 b3)
    | tupleRefused _ js _ vs x t1 j1 a1 a2 a3 a4 a5 a6 a7 =>
      cases h' with
      | array _ _ _ _ h => exact absurd rfl (h _)
      | object _ _ _ h => cases h
      | tupleLength _ _ _ h => exact absurd a1 h
      | tuple _ _ _ vs' b1 b2 b3 b4 => exact absurd a6 (b4 _ _ _ a2 a3)
      | tupleRefused _ _ _ vs' x' t2 j2 b1 b2 b3 b4 b5 b6 b7 =>
        have hl : vs.length = vs'.length := by
          rcases Nat.lt_trichotomy vs.length vs'.length with h | h | h
          · exact absurd a6 (b5 _ _ _ h a2 a3)
          · exact h
          · exact absurd b6 (a5 _ _ _ h b2 b3)
        have hv := pref rfl a1 hl (Nat.le_of_lt (lt a2)) a4 b4
        subst hv
        rw [a2] at b2
        rw [a3] at b3
        cases b2
        cases b3
        rw [ihj j1 (size_item (List.mem_of_getElem? a3)) t1 (hts _ (List.mem_of_getElem? a2)) _ _ _ a7 b7]
  | variant ts =>
    have hts := (Ty.unshareds_iff ts).1 ht
    cases h with
    | array _ _ _ h => cases h
    | object _ _ _ h => cases h
    | variantRefused _ _ _ h =>
      cases h' with
      | array _ _ _ h => cases h
      | object _ _ _ h => cases h
      | variantRefused => rfl
      | variant _ _ _ i t v b1 b2 => exact absurd (h t (List.mem_of_getElem? b1)) b2
    | variant _ _ _ i t v a1 a2 a3 a4 =>
      cases h' with
      | array _ _ _ h => cases h
      | object _ _ _ h => cases h
      | variantRefused _ _ _ h => exact absurd (h t (List.mem_of_getElem? a1)) a2
      | variant _ _ _ i' t' v' b1 b2 b3 b4 =>
        have hi : i = i' := by
          rcases Nat.lt_trichotomy i i' with h | h | h
          · exact absurd (b3 _ _ h a1) a2
          · exact h
          · exact absurd (a3 _ _ h b1) b2
        subst hi
        rw [a1] at b1
        cases b1
        rw [iht t (size_alt (List.mem_of_getElem? a1)) (hts t (List.mem_of_getElem? a1)) _ _ _ a4 b4]
  | cls c =>
    cases h with
    | object _ _ _ _ h =>
      cases h' with
      | array => rfl
      | object => rfl
      | cls => exact absurd rfl (h _)
    | array _ _ _ h => cases h
    | cls _ ms _ vs us a1 a2 a3 a4 a5 =>
      cases h' with
      | object _ _ _ _ h => exact absurd rfl (h _)
      | array _ _ _ h => cases h
      | cls _ _ _ vs' us' b1 b2 b3 b4 b5 =>
        have : vs = vs' := by
          refine List.ext_getElem (a1.trans b1.symm) fun i h1 h2 => ?_
          have em := List.getElem?_eq_getElem (l := env.members c) (show i < (env.members c).length by omega)
          have hm := hu c _ (List.mem_of_getElem? em)
          have e1 := List.getElem?_eq_getElem h1
          have e2 := List.getElem?_eq_getElem h2
          generalize (env.members c)[i] = m at em hm
          cases hf : findMember m.name ms with
          | none => exact (a5 i m _ em e1 hf).trans (b5 i m _ em e2 hf).symm
          | some p =>
            obtain ⟨k, j⟩ := p
            by_cases hk : m.kind = .optional
            · have e3 := ihj j (size_field (findMember_mem hf)) m.ty hm _ _ _ (a4 i m k j em hf hk) (b4 i m k j em hf hk)
              rw [a3 i m _ k j em e1 hf hk, b3 i m _ k j em e2 hf hk, e3]
            · exact ihj j (size_field (findMember_mem hf)) m.ty hm _ _ _ (a2 i m _ k j em e1 hf hk) (b2 i m _ k j em e2 hf hk)
        rw [this]
  | uptr t =>
    cases h with
    | array _ _ _ h => cases h
    | object _ _ _ h => cases h
    | uptr _ _ _ v a1 a2 =>
      cases h' with
      | array _ _ _ h => cases h
      | object _ _ _ h => cases h
      | uptr _ _ _ v' b1 b2 => rw [iht t (by simp) ht _ _ _ a2 b2]
      | uptrRefused _ _ _ h => exact absurd h a1
    | uptrRefused _ _ _ h =>
      cases h' with
      | array _ _ _ h => cases h
      | object _ _ _ h => cases h
      | uptr _ _ _ v' b1 b2 => exact absurd h b1
      | uptrRefused => rfl
  | sptr t => simp [Ty.unshared] at ht

/-! ## Values of their types -/

/-- A value of the type as C++ guarantees it: as `HasTy` (`Typing`), but pointers may be null. -/
inductive Shaped (env : Env) : Val → Ty → Prop
  | prim (pv : PVal) (p : Prim) : PrimTy env pv p → Shaped env (.prim pv) (.prim p)
  | vec (vs : List Val) (t : Ty) : (∀ v, v ∈ vs → Shaped env v t) → Shaped env (.seq vs) (.vec t)
  | arr (vs : List Val) (n : Nat) (t : Ty) : vs.length = n → (∀ v, v ∈ vs → Shaped env v t) → Shaped env (.tup vs) (.arr n t)
  | set (vs : List Val) (t : Ty) : (∀ v, v ∈ vs → Shaped env v t) → (vs.Pairwise fun x y => env.less x y = true) → Shaped env (.set vs) (.set t)
  | map (kvs : List (Str × Val)) (o : Bool) (t : Ty) : (∀ p, p ∈ kvs → Shaped env p.2 t) → Ascending kvs → Shaped env (.map kvs) (.map o t)
  | dict (kvs : List (Str × Val)) (t : Ty) : (∀ p, p ∈ kvs → Shaped env p.2 t) → Shaped env (.dict kvs) (.dict t)
  | tuple (vs : List Val) (ts : List Ty) : vs.length = ts.length →
      (∀ (i : Nat) (v : Val) (t : Ty), vs[i]? = some v → ts[i]? = some t → Shaped env v t) → Shaped env (.tup vs) (.tuple ts)
  | alt (ts : List Ty) (i : Nat) (t : Ty) (v : Val) : ts[i]? = some t → Shaped env v t → Shaped env (.alt i v) (.variant ts)
  | obj (c : Nat) (vs : List Val) : vs.length = (env.members c).length →
      (∀ (i : Nat) (v : Val) (m : Member), vs[i]? = some v → (env.members c)[i]? = some m → m.kind ≠ .optional → Shaped env v m.ty) →
      (∀ (i : Nat) (u : Val) (m : Member), vs[i]? = some (.present u) → (env.members c)[i]? = some m → m.kind = .optional → Shaped env u m.ty) →
      (∀ (i : Nat) (v : Val) (m : Member), vs[i]? = some v → (env.members c)[i]? = some m → m.kind = .optional → v = .absent ∨ ∃ u, v = .present u) →
      Shaped env (.obj vs) (.cls c)
  | uptr (t : Ty) (v : Val) : Shaped env v t → Shaped env (.uptr v) (.uptr t)
  | sptr (t : Ty) (a : Nat) (v : Val) : Shaped env v t → Shaped env (.sptr a v) (.sptr t)
  | unull (t : Ty) : Shaped env .nullptr (.uptr t)
  | snull (t : Ty) : Shaped env .nullptr (.sptr t)

/-- New variables of the type and of the types that occur in it are values of their types. -/
def FreshShaped (env : Env) (t : Ty) : Prop := ∀ t', Within env t t' → Shaped env (env.fresh t') t' ∧ Shaped env (env.ctor t') t'

theorem FreshShaped.inner {env : Env} {t t' : Ty} (h : FreshShaped env t) (hi : Inner env t t') : FreshShaped env t' := by
  intro t'' hw
  refine h t'' ?_
  induction hw with
  | self => exact .inner t t' .self hi
  | inner t1 t2 _ h2 ih => exact .inner t1 t2 ih h2

theorem Shaped.components {env : Env} {v : Val} {ts : List Ty} (h : Shaped env v (.tuple ts)) :
    v.components.length = ts.length ∧ ∀ (i : Nat) (w : Val) (t : Ty), v.components[i]? = some w → ts[i]? = some t → Shaped env w t := by
  cases h with
  | tuple vs _ h1 h2 => exact ⟨h1, h2⟩

theorem Shaped.component {env : Env} {v : Val} {ts : List Ty} (h : Shaped env v (.tuple ts)) {i : Nat} {t : Ty} (ht : ts[i]? = some t) (d : Val) :
    Shaped env (v.components.getD i d) t := by
  obtain ⟨h1, h2⟩ := h.components
  have hi : i < v.components.length := by rw [h1]; exact (List.getElem?_eq_some_iff.1 ht).1
  have := List.getElem?_eq_getElem hi
  rw [List.getD_eq_getElem?_getD, this]
  exact h2 i _ t this ht

theorem Shaped.member {env : Env} {v : Val} {c : Nat} (h : Shaped env v (.cls c)) {i : Nat} {m : Member} (hm : (env.members c)[i]? = some m)
    (hk : m.kind ≠ .optional) (d : Val) : Shaped env (v.members.getD i d) m.ty := by
  cases h with
  | obj _ vs h1 h2 _ _ =>
    have hi : i < vs.length := by rw [h1]; exact (List.getElem?_eq_some_iff.1 hm).1
    have := List.getElem?_eq_getElem hi
    simp only [Val.members]
    rw [List.getD_eq_getElem?_getD, this]
    exact h2 i _ m this hm hk

theorem Shaped.pair {env : Env} {t : Ty} {v : Val} (h : Shaped env v (.tuple [.prim .str, t])) : ∃ k w, v = .tup [.prim (.str k), w] ∧ Shaped env w t := by
  cases h with
  | tuple vs _ h1 h2 =>
    rcases vs with _ | ⟨a, _ | ⟨w, _ | ⟨x, vs⟩⟩⟩
    · cases h1
    · cases h1
    · have ha := h2 0 a _ rfl rfl
      cases ha with
      | prim pv _ hp => cases pv <;> first | exact ⟨_, w, rfl, h2 1 w t rfl rfl⟩ | exact hp.elim
    · cases h1

/-- What is left is a value of the type. -/
theorem Remnant.shaped {env : Env} (hl : StrictLess env.less) (hclk : 0 < env.clk) {t : Ty} {j : Json} {target w : Val}
    (h : Remnant env t j target w) : FreshShaped env t → Shaped env target t → Shaped env w t := by
  have pick : ∀ {js : List Json} {vs : List Val} {v : Val}, vs.length ≤ js.length → v ∈ vs → ∃ (i : Nat) (j : Json), js[i]? = some j ∧ vs[i]? = some v := by
    intro js vs v hle hv
    obtain ⟨i, hi, he⟩ := List.getElem_of_mem hv
    exact ⟨i, js[i]'(by omega), List.getElem?_eq_getElem _, by rw [List.getElem?_eq_getElem hi, he]⟩
  induction h with
  | prim p j target pv hr =>
    intro _ _
    exact .prim pv p (leaf_whole env hclk false false p j pv hr (by simp) (by simp)).1
  | leaf p j target hr =>
    intro _ ht
    unfold leafLeft
    split
    · exact .prim _ _ trivial
    · exact ht
  | array => exact fun _ ht => ht
  | object => exact fun _ ht => ht
  | vec t js target vs h1 h2 h3 h4 ih =>
    intro hf _
    refine .vec vs t fun v hv => ?_
    obtain ⟨i, j, hj, hv⟩ := pick h1 hv
    have hf' := hf.inner (.vec t)
    exact ih i j v hj hv hf' (hf' t .self).1
  | arr n t js target vs h1 h2 h3 h4 ih =>
    intro hf _
    refine .arr vs n t h2 fun v hv => ?_
    obtain ⟨i, j, hj, hv⟩ := pick (js := js) (by omega) hv
    have hf' := hf.inner (.arr n t)
    exact ih i j v hj hv hf' (hf' t .self).1
  | arrRefused => exact fun _ ht => ht
  | set t js target vs h1 h2 h3 h4 ih =>
    intro hf _
    obtain ⟨f1, f2, -⟩ := setFold hl vs [] .nil
    refine .set _ t (fun v hv => ?_) f1
    obtain ⟨i, j, hj, hv⟩ := pick h1 ((f2 v hv).resolve_right (by simp))
    have hf' := hf.inner (.set t)
    exact ih i j v hj hv hf' (hf' t .self).1
  | map o t ms target kvs h1 h2 h3 h4 h5 ih =>
    intro hf _
    refine .map _ o t (fun p hp => ?_) ((keysAsc_iff _).2 (mapOf_asc kvs))
    obtain ⟨i, hi, he⟩ := List.getElem_of_mem (mapOf_mem kvs p hp)
    have hf' := hf.inner (.map o t)
    exact ih i (ms[i]'(by omega)) p (List.getElem?_eq_getElem _) (by rw [List.getElem?_eq_getElem hi, he]) hf' (hf' t .self).1
  | dict t js target vs h1 h2 h3 h4 ih =>
    intro hf _
    refine .dict _ t fun p hp => ?_
    obtain ⟨v, hv, rfl⟩ := List.mem_map.1 hp
    obtain ⟨i, j, hj, hv⟩ := pick h1 hv
    have hf' := hf.inner (.dict t)
    obtain ⟨k, w, rfl, hw⟩ := (ih i j v hj hv hf' (hf' _ .self).1).pair
    exact hw
  | tupleLength => exact fun _ ht => ht
  | tuple ts js target vs h1 h2 h3 h4 ih =>
    intro hf ht
    refine .tuple vs ts h2 fun i v t hv hti => ?_
    have hi : i < js.length := by have := (List.getElem?_eq_some_iff.1 hti).1; omega
    exact ih i t _ v hti (List.getElem?_eq_getElem hi) hv (hf.inner (.tuple ts t (List.mem_of_getElem? hti))) (ht.component hti _)
  | tupleRefused ts js target vs w t j h1 h2 h3 h4 h5 h6 h7 ih ihw =>
    intro hf ht
    obtain ⟨c1, c2⟩ := ht.components
    have hlt := (List.getElem?_eq_some_iff.1 h2).1
    refine .tuple _ ts (by simp; omega) fun i v t' hv hti => ?_
    have hf' := hf.inner (.tuple ts t' (List.mem_of_getElem? hti))
    rcases Nat.lt_trichotomy i vs.length with h | h | h
    · rw [List.getElem?_append_left h] at hv
      have hi : i < js.length := by omega
      exact ih i t' _ v hti (List.getElem?_eq_getElem hi) hv hf' (ht.component hti _)
    · subst h
      rw [h2] at hti
      cases hti
      rw [List.getElem?_append_right (Nat.le_refl _), Nat.sub_self, List.getElem?_cons_zero] at hv
      cases hv
      exact ihw hf' (ht.component h2 _)
    · rw [List.getElem?_append_right (by omega)] at hv
      obtain ⟨d, hd⟩ : ∃ d, i - vs.length = d + 1 := ⟨i - vs.length - 1, by omega⟩
      rw [hd, List.getElem?_cons_succ, List.getElem?_drop] at hv
      rw [show vs.length + 1 + d = i by omega] at hv
      exact c2 i v t' hv hti
  | variant ts j target i t v h1 h2 h3 h4 ih =>
    intro hf _
    have hf' := hf.inner (.variant ts t (List.mem_of_getElem? h1))
    exact .alt ts i t v h1 (ih hf' (hf' t .self).1)
  | variantRefused => exact fun _ ht => ht
  | cls c ms target vs us h1 h2 h3 h4 h5 ih1 ih2 =>
    intro hf ht
    have hf' : ∀ {i : Nat} {m : Member}, (env.members c)[i]? = some m → FreshShaped env m.ty := fun hm => hf.inner (.cls c _ (List.mem_of_getElem? hm))
    refine .obj c vs h1 ?_ ?_ ?_
    · intro i v m hv hm hk
      cases hfm : findMember m.name ms with
      | none =>
        rw [h5 i m v hm hv hfm, if_neg hk]
        exact ht.member hm hk _
      | some p => exact ih1 i m v p.1 p.2 hm hv hfm hk (hf' hm) (ht.member hm hk _)
    · intro i u m hv hm hk
      cases hfm : findMember m.name ms with
      | none =>
        have := h5 i m _ hm hv hfm
        rw [if_pos hk] at this
        cases this
      | some p =>
        have := h3 i m _ p.1 p.2 hm hv hfm hk
        rw [Val.present.injEq] at this
        rw [this]
        exact ih2 i m p.1 p.2 hm hfm hk (hf' hm) (hf' hm m.ty .self).1
    · intro i v m hv hm hk
      cases hfm : findMember m.name ms with
      | none => exact .inl (by rw [h5 i m v hm hv hfm, if_pos hk])
      | some p => exact .inr ⟨us i, h3 i m v p.1 p.2 hm hv hfm hk⟩
  | uptr t j target v h1 h2 ih =>
    intro hf _
    have hf' := hf.inner (.uptr t)
    exact .uptr t v (ih hf' (hf' t .self).2)
  | uptrRefused => exact fun _ ht => ht
  | sptr t j target v a h1 ih =>
    intro hf _
    have hf' := hf.inner (.sptr t)
    exact .sptr t a v (ih hf' (hf' t .self).2)

end Verif.Core
