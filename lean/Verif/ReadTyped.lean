import Verif.ReadLemmas
import Verif.RoundTrip
import Verif.Rounding

/-!
# Values denoted by documents are values of their type

`Decodes` (`ReadSpec`) says which value a document denotes. Here: this value is a value of the C++ type without
null pointers, its floating-point numbers are finite if none in the document overflows, and it can be read back
after it was written. Members of kind `default` that are not in the document keep what the target holds, so this is
subject to what the targets hold (`Ready`).
-/

namespace Verif.Core
open Verif.Numeric Verif.EnumConv

/-! ## Kinds of documents -/

/-- The kinds of document nodes that the readers tell apart before they look inside. -/
inductive Shape
  | null | bool | int | dbl | str | arr | obj
deriving DecidableEq, Repr

/-- The kind of a node. -/
def Json.shape : Json → Shape
  | .null => .null
  | .bool _ => .bool
  | .num (.int _) => .int
  | .num (.dbl _) => .dbl
  | .str _ => .str
  | .arr _ => .arr
  | .obj _ => .obj

/-- All kinds. -/
def Shape.all : List Shape := [.null, .bool, .int, .dbl, .str, .arr, .obj]

/-- The kinds of nodes that a leaf type can be read from. -/
def Prim.takes : Prim → List Shape
  | .null => [.null]
  | .bool => [.bool]
  | .int _ | .enumInt _ => [.int]
  | .flt _ => [.int, .dbl]
  | .str | .bytes | .time | .date | .enumStr _ => [.str]

/-- The kinds of nodes that a leaf type is written as. -/
def Prim.gives : Prim → List Shape
  | .flt _ => [.dbl]
  | p => p.takes

mutual
/-- The kinds of nodes that a type can be read from. (Shared pointers take part in the table of references whatever
the node is.) -/
def Ty.takes : Ty → List Shape
  | .prim p => p.takes
  | .vec _ | .arr _ _ | .set _ | .dict _ | .tuple _ => [.arr]
  | .map _ _ | .cls _ => [.obj]
  | .variant ts => takesAny ts
  | .uptr t => t.takes
  | .sptr _ => Shape.all

/-- The kinds of nodes that one of the types can be read from. -/
def takesAny : List Ty → List Shape
  | [] => []
  | t :: ts => t.takes ++ takesAny ts
end

mutual
/-- The kinds of nodes that a type is written as. -/
def Ty.gives : Ty → List Shape
  | .prim p => p.gives
  | .vec _ | .arr _ _ | .set _ | .tuple _ => [.arr]
  | .map _ _ | .cls _ | .dict _ => [.obj]
  | .variant ts => givesAny ts
  | .uptr t => t.gives
  | .sptr _ => Shape.all

/-- The kinds of nodes that one of the types is written as. -/
def givesAny : List Ty → List Shape
  | [] => []
  | t :: ts => t.gives ++ givesAny ts
end

/-- No node that a value of the second type is written as can be read as the first type. -/
def Apart (t' t : Ty) : Prop := ∀ x ∈ t.gives, x ∉ t'.takes

instance (t' t : Ty) : Decidable (Apart t' t) := inferInstanceAs (Decidable (∀ x ∈ t.gives, x ∉ t'.takes))

theorem takesAny_iff (x : Shape) (ts : List Ty) : x ∈ takesAny ts ↔ ∃ t ∈ ts, x ∈ t.takes := by
  induction ts with
  | nil => simp [takesAny]
  | cons t ts ih => simp [takesAny, ih]

theorem givesAny_iff (x : Shape) (ts : List Ty) : x ∈ givesAny ts ↔ ∃ t ∈ ts, x ∈ t.gives := by
  induction ts with
  | nil => simp [givesAny]
  | cons t ts ih => simp [givesAny, ih]

theorem Json.shape_all (j : Json) : j.shape ∈ Shape.all := by
  rcases j with _ | _ | n | _ | _ | _
  case num => cases n <;> simp [Json.shape, Shape.all]
  all_goals simp [Json.shape, Shape.all]

/-- A leaf type rejects nodes of other kinds. -/
theorem desPrim_shape (env : Env) (p : Prim) (j : Json) (h : j.shape ∉ p.takes) : ∃ e, desPrim env p j = .reject e := by
  rcases j with _ | b | n | s | js | ms
  case num =>
    cases n with
    | int v => cases p <;> simp [Json.shape, Prim.takes] at h <;> exact ⟨_, rfl⟩
    | dbl d =>
      cases p <;> simp [Json.shape, Prim.takes] at h
      case int t => exact ⟨_, by simp [desPrim, desInt, deserializeInt]; rfl⟩
      case enumInt t => exact ⟨_, by simp [desPrim, desInt, deserializeInt]; rfl⟩
      all_goals exact ⟨_, rfl⟩
  all_goals cases p <;> simp [Json.shape, Prim.takes] at h <;> exact ⟨_, rfl⟩

/-- A type rejects nodes of other shapes, without a trace. -/
theorem node_shape (env : Env) (root j : Json) (items : List DesFn) (fields : List (Str × DesFn)) : ∀ t : Ty, j.shape ∉ t.takes →
    ∀ target loc segs st, ∃ w, node env root j items fields t false target loc segs st = .done false w st := by
  intro t
  refine Ty.rec (motive_1 := fun t => j.shape ∉ t.takes → ∀ target loc segs st, ∃ w, node env root j items fields t false target loc segs st = .done false w st)
    (motive_2 := fun ts => j.shape ∉ takesAny ts → ∀ i loc segs st, ∃ w, alternatives env root j items fields ts i loc segs st = .done false w st)
    ?_ ?_ ?_ ?_ ?_ ?_ ?_ ?_ ?_ ?_ ?_ ?_ ?_ t
  · intro p h target loc segs st
    obtain ⟨e, he⟩ := desPrim_shape env p j (by simpa [Ty.takes] using h)
    exact ⟨_, by rw [node, he]; rfl⟩
  · intro t _ h target loc segs st
    cases j <;> simp [Ty.takes, Json.shape] at h <;> exact ⟨_, by simp [node, DRes.reject]; rfl⟩
  · intro n t _ h target loc segs st
    cases j <;> simp [Ty.takes, Json.shape] at h <;> exact ⟨_, by simp [node, DRes.reject]; rfl⟩
  · intro t _ h target loc segs st
    cases j <;> simp [Ty.takes, Json.shape] at h <;> exact ⟨_, by simp [node, DRes.reject]; rfl⟩
  · intro o t _ h target loc segs st
    cases j <;> simp [Ty.takes, Json.shape] at h <;> exact ⟨_, by simp [node, DRes.reject]; rfl⟩
  · intro t _ h target loc segs st
    cases j <;> simp [Ty.takes, Json.shape] at h <;> exact ⟨_, by simp [node, DRes.reject]; rfl⟩
  · intro ts _ h target loc segs st
    cases j <;> simp [Ty.takes, Json.shape] at h <;> exact ⟨_, by simp [node, DRes.reject]; rfl⟩
  · intro ts ih h target loc segs st
    obtain ⟨w, hw⟩ := ih (by simpa [Ty.takes] using h) 0 loc segs st
    exact ⟨_, by rw [node, hw]; rfl⟩
  · intro c h target loc segs st
    cases j <;> simp [Ty.takes, Json.shape] at h <;> exact ⟨_, by simp [node, DRes.reject]; rfl⟩
  · intro t ih h target loc segs st
    obtain ⟨w, hw⟩ := ih (by simpa [Ty.takes] using h) (env.ctor t) loc segs st
    exact ⟨_, by rw [node, hw]⟩
  · intro t _ h
    exact absurd j.shape_all (by simpa [Ty.takes] using h)
  · intro _ i loc segs st
    exact ⟨_, by rw [alternatives]⟩
  · intro t ts ih1 ih2 h i loc segs st
    simp only [takesAny, List.mem_append, not_or] at h
    obtain ⟨w, hw⟩ := ih1 h.1 (env.fresh t) loc segs st
    obtain ⟨w', hw'⟩ := ih2 h.2 (i + 1) loc segs st
    exact ⟨_, by rw [alternatives, hw]; exact hw'⟩

theorem rejects_shape (env : Env) (t : Ty) (j : Json) (h : j.shape ∉ t.takes) : Rejects env t j := by
  intro root loc segs st
  rw [deser_node]
  exact node_shape env root j _ _ t h _ loc segs st

/-- A leaf is written as a node of one of its shapes. -/
theorem serPrim_shape (env : Env) (p : PVal) (k : Prim) (j : Json) (h : serPrim env k p = .ok j) : j.shape ∈ k.gives := by
  cases k <;> cases p <;> simp only [serPrim, reduceCtorEq] at h
  all_goals first
    | (cases h; simp [Json.shape, Prim.gives, Prim.takes])
    | (split at h <;> cases h <;> simp [Json.shape, Prim.gives, Prim.takes])

/-- A value is written as a node of one of the shapes of its type. -/
theorem shows_shape (env : Env) : ∀ (v : Val) (t : Ty) (pos : List Nat) (j : Json) (tr : List Occ), Shows env v t pos j tr → j.shape ∈ t.gives := by
  intro v
  induction v using Val.strong with
  | h v ih =>
    intro t pos j tr h
    cases h with
    | prim h => simpa [Ty.gives] using serPrim_shape env _ _ j h
    | alt h1 h2 =>
      rw [Ty.gives, givesAny_iff]
      exact ⟨_, List.mem_of_getElem? h1, ih _ (by simp) _ _ _ _ h2⟩
    | uptr h => rw [Ty.gives]; exact ih _ (by simp) _ _ _ _ h
    | full h => rw [Ty.gives]; exact j.shape_all
    | ref => rw [Ty.gives]; simp [Json.shape, Shape.all]
    | _ => simp [Ty.gives, Json.shape]

/-! ## Targets -/

/-- What is claimed of a value: it is a value of the type without null pointers; on demand, its numbers are
finite, and it can be read back after it was written. -/
def Whole (env : Env) (fin back : Bool) (v : Val) (t : Ty) : Prop :=
  HasTy env (fun _ => none) v t ∧ (fin = true → finite v = true) ∧ (back = true → Readable env v t)

mutual
/-- The members of kind `default` that the target holds are whole. (Everything else in a target is overwritten.) -/
inductive Ready (env : Env) (fin back : Bool) : Ty → Val → Prop
  | other (t : Ty) (v : Val) : (∀ ts, t ≠ .tuple ts) → (∀ c, t ≠ .cls c) → Ready env fin back t v
  | tuple (ts : List Ty) (v : Val) : ReadyEach env fin back ts v.components → Ready env fin back (.tuple ts) v
  | cls (c : Nat) (v : Val) : ReadyMembers env fin back (env.members c) v.members → Ready env fin back (.cls c) v

/-- The components of a tuple are ready. -/
inductive ReadyEach (env : Env) (fin back : Bool) : List Ty → List Val → Prop
  | nil (vs : List Val) : ReadyEach env fin back [] vs
  | cons (t : Ty) (ts : List Ty) (vs : List Val) : Ready env fin back t (vs.headD (env.fresh t)) → ReadyEach env fin back ts vs.tail →
      ReadyEach env fin back (t :: ts) vs

/-- The members of an object are ready. -/
inductive ReadyMembers (env : Env) (fin back : Bool) : List Member → List Val → Prop
  | nil (vs : List Val) : ReadyMembers env fin back [] vs
  | cons (m : Member) (ms : List Member) (vs : List Val) :
      (m.kind ≠ .optional → Ready env fin back m.ty (vs.headD (env.fresh m.ty))) →
      (m.kind = .default → Whole env fin back (vs.headD (env.fresh m.ty)) m.ty) →
      ReadyMembers env fin back ms vs.tail → ReadyMembers env fin back (m :: ms) vs
end

/-- The variables that the readers create for elements, alternatives and pointees of the document are ready. -/
def Furnished (env : Env) (fin back : Bool) (T : Ty) (root : Json) : Prop :=
  ∀ t j, Part env T root t j → Ready env fin back t (env.fresh t) ∧ Ready env fin back t (env.ctor t)

/-- No number of the document is too large for the floating-point type that it is read as. -/
def InReach (env : Env) (T : Ty) (root : Json) : Prop :=
  ∀ t n, Part env T root (.prim (.flt t)) (.num n) → (n.getDouble.round t).isFinite = true

/-- The type is written such that it can be read back: it is not a dictionary, enumerators have different names, and
earlier alternatives of a variant are told apart from later ones by the shape of the document. -/
def StableTop : Ty → Prop
  | .dict _ => False
  | .prim (.enumStr table) => (table.map (·.2)).Nodup
  | .variant ts => ∀ (i k : Nat) (t t' : Ty), k < i → ts[i]? = some t → ts[k]? = some t' → Apart t' t
  | _ => True

/-- This holds for the types of all nodes of the document. -/
def Stable (env : Env) (T : Ty) (root : Json) : Prop := ∀ t j, Part env T root t j → StableTop t

/-! ## Leaves -/

theorem enumValue_mem (table : Table) (s : Str) (v : Int) (h : enumValue table s = some v) : v ∈ table.map (·.1) := by
  induction table with
  | nil => cases h
  | cons item table ih =>
    rw [enumValue] at h
    split at h
    · cases h; simp
    · exact List.mem_cons_of_mem _ (ih h)

theorem time_sound (clk : Nat) (s : Str) (t : Int) (h : DateTime.parseDatetime clk s = .ok t) :
    DateTime.InRep t ∧ ∃ x, t = x * clk ∧ Props.minSecond ≤ x ∧ x < Props.endSecond := by
  have hne : DateTime.parseDatetime clk s ≠ .rejected := by rw [h]; simp
  obtain ⟨sep, y, m, d, hh, mi, x, hsep, hy, hv, heq⟩ := ((Props.C07_parse_accepts_exactly clk s).1).1 hne
  rw [heq, (Props.C07_parse_accepts_exactly clk s).2 sep y m d hh mi x hsep hy hv] at h
  split at h
  · rename_i hr
    cases h
    refine ⟨hr, _, rfl, (Props.seconds_year _).2 ?_⟩
    rw [DateTime.gmtime_timegm _ hv]
    exact ⟨by simp, by simpa using hy⟩
  · cases h

theorem date_sound (clk : Nat) (hclk : 0 < clk) (s : Str) (y : Int) (m d : Nat) (h : DateTime.readDate clk s = .ok y m d) :
    DateTime.ValidDate y m d ∧ DateTime.InRep (DateTime.dayNumber y m d * 86400 * clk) ∧ 0 ≤ y ∧ y < 10000 := by
  have hne : DateTime.readDate clk s ≠ .rejected := by rw [h]; simp
  obtain ⟨y', m', d', hy, hv, heq⟩ := ((Props.C11_date_accepts_exactly clk hclk s).1).1 hne
  rw [heq, (Props.C11_date_accepts_exactly clk hclk s).2 y' m' d' hy hv] at h
  split at h
  · rename_i hr
    cases h
    exact ⟨hv, hr, by omega, by omega⟩
  · cases h

/-- The value denoted by a leaf is whole. -/
theorem leaf_whole (env : Env) (hclk : 0 < env.clk) (fin back : Bool) (p : Prim) (j : Json) (pv : PVal) (h : LeafReads env p j pv)
    (hf : fin = true → ∀ t n, p = .flt t → j = .num n → (n.getDouble.round t).isFinite = true)
    (hb : back = true → StableTop (.prim p)) : Whole env fin back (.prim pv) (.prim p) := by
  cases h with
  | flt t n => exact ⟨round_fits_result t _, fun h => hf h t n rfl rfl, fun _ => trivial⟩
  | int t v h => exact ⟨h, fun _ => rfl, fun _ => trivial⟩
  | enumInt t v h => exact ⟨h, fun _ => rfl, fun _ => trivial⟩
  | enumStr table s v h => exact ⟨trivial, fun _ => rfl, fun hb' => ⟨enumValue_mem table s v h, hb hb'⟩⟩
  | time s t h =>
    obtain ⟨h1, h2⟩ := time_sound env.clk s t h
    exact ⟨h1, fun _ => rfl, fun _ => h2⟩
  | date s y m d h =>
    obtain ⟨h1, h2, h3⟩ := date_sound env.clk hclk s y m d h
    exact ⟨⟨h1, h2⟩, fun _ => rfl, fun _ => h3⟩
  | _ => exact ⟨trivial, fun _ => rfl, fun _ => trivial⟩

/-! ## All documents -/

theorem Whole.all {env : Env} {fin back : Bool} {vs : List Val} {t : Ty} (h : ∀ v ∈ vs, Whole env fin back v t) :
    AllTy env (fun _ => none) vs t ∧ (fin = true → finiteAll vs = true) ∧ (back = true → ReadableAll env vs t) := by
  induction vs with
  | nil => exact ⟨trivial, fun _ => rfl, fun _ => trivial⟩
  | cons v vs ih =>
    obtain ⟨h1, h2, h3⟩ := ih fun w hw => h w (by simp [hw])
    obtain ⟨k1, k2, k3⟩ := h v (by simp)
    exact ⟨⟨k1, h1⟩, fun hf => by simp [finiteAll, k2 hf, h2 hf], fun hb => ⟨k3 hb, h3 hb⟩⟩

theorem Whole.vals {env : Env} {fin back : Bool} {kvs : List (Str × Val)} {t : Ty} (h : ∀ p ∈ kvs, 0 ∉ p.1 ∧ Whole env fin back p.2 t) :
    ValsTy env (fun _ => none) kvs t ∧ (fin = true → finiteVals kvs = true) ∧ (back = true → ReadableVals env kvs t) := by
  induction kvs with
  | nil => exact ⟨trivial, fun _ => rfl, fun _ => trivial⟩
  | cons p kvs ih =>
    obtain ⟨k, v⟩ := p
    obtain ⟨h1, h2, h3⟩ := ih fun w hw => h w (by simp [hw])
    obtain ⟨k0, k1, k2, k3⟩ := h (k, v) (by simp)
    exact ⟨⟨k1, h1⟩, fun hf => by simp [finiteVals, k2 hf, h2 hf], fun hb => ⟨⟨k0, k3 hb⟩, h3 hb⟩⟩

theorem typed_noaddr (env : Env) (v : Val) (t : Ty) (h : HasTy env (fun _ => none) v t) : addrs v = [] := by
  rw [List.eq_nil_iff_forall_not_mem]
  intro a ha
  obtain ⟨t', w, h, -⟩ := addrs_size env _ v t h a ha
  cases h

theorem typed_noaddrAll (env : Env) (vs : List Val) (t : Ty) (h : AllTy env (fun _ => none) vs t) : addrsAll vs = [] := by
  induction vs with
  | nil => rfl
  | cons v vs ih => simp [addrsAll, typed_noaddr env v t h.1, ih h.2]

theorem whole_all (env : Env) (fin back : Bool) (t : Ty) (js : List Json) (vs : List Val) (h : DecodesAll env t js vs)
    (ih : ∀ j ∈ js, ∀ v, Decodes env t j (env.fresh t) v → Whole env fin back v t) : ∀ v ∈ vs, Whole env fin back v t := by
  induction js generalizing vs with
  | nil => cases h; simp
  | cons j js ihs =>
    cases h with
    | cons _ _ _ v vs h1 h2 =>
      intro w hw
      rcases List.mem_cons.1 hw with rfl | hw
      · exact ih j (by simp) _ h1
      · exact ihs vs h2 (fun j hj => ih j (by simp [hj])) w hw

theorem cstr_nonul (k : Str) : 0 ∉ cstr k := by
  intro h
  have := List.all_takeWhile (l := k) (p := (· ≠ 0))
  rw [List.all_eq_true] at this
  simpa using this 0 h

theorem mapOf_mem {α : Type} (kvs : List (Str × α)) (p : Str × α) (h : p ∈ mapOf kvs) : p ∈ kvs := by
  have key : ∀ (kvs s : List (Str × α)), p ∈ kvs.foldl (fun s p => mapAssign p.1 p.2 s) s → p ∈ kvs ∨ p ∈ s := by
    intro kvs
    induction kvs with
    | nil => exact fun s h => .inr h
    | cons q kvs ih =>
      intro s h
      rcases ih _ h with h | h
      · exact .inl (by simp [h])
      · rcases mem_mapAssign h with h | h
        · exact .inl (by simp [h])
        · exact .inr h
  exact (key kvs [] h).resolve_right (by simp)

theorem decodesAll_length {env : Env} {t : Ty} {js : List Json} {vs : List Val} (h : DecodesAll env t js vs) : vs.length = js.length := by
  induction js generalizing vs with
  | nil => cases h; rfl
  | cons j js ih =>
    cases h with
    | cons _ _ _ v vs _ h => simp [ih h]

theorem whole_entries (env : Env) (fin back : Bool) (t : Ty) (ms : List (Str × Json)) (kvs : List (Str × Val)) (h : DecodesEntries env t ms kvs)
    (ih : ∀ p ∈ ms, ∀ v, Decodes env t p.2 (env.fresh t) v → Whole env fin back v t) : ∀ p ∈ kvs, 0 ∉ p.1 ∧ Whole env fin back p.2 t := by
  induction ms generalizing kvs with
  | nil => cases h; simp
  | cons p ms ihs =>
    cases h with
    | cons _ k j ms v kvs h1 h2 =>
      intro w hw
      rcases List.mem_cons.1 hw with rfl | hw
      · exact ⟨cstr_nonul k, ih (k, j) (by simp) _ h1⟩
      · exact ihs kvs h2 (fun j hj => ih j (by simp [hj])) w hw

theorem whole_each (env : Env) (fin back : Bool) (js : List Json) : ∀ (ts : List Ty) (targets vs : List Val), DecodesEach env ts js targets vs →
    ReadyEach env fin back ts targets →
    (∀ (i : Nat) t j, ts[i]? = some t → js[i]? = some j → ∀ target v, Ready env fin back t target → Decodes env t j target v → Whole env fin back v t) →
    HasTys env (fun _ => none) vs ts ∧ (fin = true → finiteAll vs = true) ∧ (back = true → Readables env vs ts) := by
  induction js with
  | nil =>
    intro ts targets vs h _ _
    cases h
    exact ⟨trivial, fun _ => rfl, fun _ => trivial⟩
  | cons j js ihs =>
    intro ts targets vs h hr ih
    cases h with
    | cons t ts _ _ _ v vs h1 h2 =>
      cases hr with
      | cons _ _ _ hr1 hr2 =>
        obtain ⟨k1, k2, k3⟩ := ih 0 t j rfl rfl _ _ hr1 h1
        obtain ⟨l1, l2, l3⟩ := ihs ts _ vs h2 hr2 fun i t j ht hj => ih (i + 1) t j (by simpa using ht) (by simpa using hj)
        exact ⟨⟨k1, l1⟩, fun hf => by simp [finiteAll, k2 hf, l2 hf], fun hb => ⟨k3 hb, l3 hb⟩⟩

theorem membersTy_cons {env : Env} {H : Heap} {m : Member} {ms : List Member} {v : Val} {vs : List Val} (hk : m.kind ≠ .optional)
    (h : HasTy env H v m.ty) (hs : MembersTy env H vs ms) : MembersTy env H (v :: vs) (m :: ms) := by
  rw [MembersTy.eq_def]
  refine ⟨?_, hs⟩
  clear hs
  cases hm : m.kind <;> first | exact h | exact absurd hm hk

theorem readableMembers_cons {env : Env} {m : Member} {ms : List Member} {v : Val} {vs : List Val} (h' : Readable env v m.ty)
    (hs : ReadableMembers env vs ms) : ReadableMembers env (v :: vs) (m :: ms) := by
  rw [ReadableMembers.eq_def]
  refine ⟨?_, hs⟩
  clear hs
  cases v <;> first | exact h' | trivial

theorem whole_members (env : Env) (fin back : Bool) (fields : List (Str × Json)) (ms : List Member) : ∀ (targets vs : List Val),
    DecodesMembers env fields ms targets vs → ReadyMembers env fin back ms targets →
    (∀ m ∈ ms, ∀ i j, findMember m.name fields = some (i, j) →
      Ready env fin back m.ty (env.fresh m.ty) ∧ ∀ target v, Ready env fin back m.ty target → Decodes env m.ty j target v → Whole env fin back v m.ty) →
    MembersTy env (fun _ => none) vs ms ∧ (fin = true → finiteAll vs = true) ∧ (back = true → ReadableMembers env vs ms) := by
  induction ms with
  | nil =>
    intro targets vs h _ _
    cases h
    exact ⟨trivial, fun _ => rfl, fun _ => trivial⟩
  | cons m ms ihs =>
    intro targets vs h hr ih
    have ih' := fun m hm => ih m (List.mem_cons_of_mem _ hm)
    cases hr with
    | cons _ _ _ hr1 hr2 hr3 =>
      cases h with
      | present _ _ _ _ i j v vs hf hk hd hrest =>
        obtain ⟨k1, k2, k3⟩ := (ih m (by simp) i j hf).2 _ v (hr1 hk) hd
        obtain ⟨l1, l2, l3⟩ := ihs _ vs hrest hr3 ih'
        exact ⟨membersTy_cons hk k1 l1, fun hf => by simp [finiteAll, k2 hf, l2 hf], fun hb => readableMembers_cons (k3 hb) (l3 hb)⟩
      | some _ _ _ _ i j v vs hf hk hd hrest =>
        obtain ⟨k1, k2, k3⟩ := (ih m (by simp) i j hf).2 _ v (ih m (by simp) i j hf).1 hd
        obtain ⟨l1, l2, l3⟩ := ihs _ vs hrest hr3 ih'
        exact ⟨by rw [MembersTy.eq_def]; exact ⟨by simpa [hk] using k1, l1⟩, fun hf => by simp [finiteAll, finite, k2 hf, l2 hf],
          fun hb => by rw [ReadableMembers.eq_def]; exact ⟨k3 hb, l3 hb⟩⟩
      | none _ _ _ _ vs hf hk hrest =>
        obtain ⟨l1, l2, l3⟩ := ihs _ vs hrest hr3 ih'
        exact ⟨by rw [MembersTy.eq_def]; exact ⟨by simp [hk], l1⟩, fun hf => by simp [finiteAll, finite, l2 hf],
          fun hb => by rw [ReadableMembers.eq_def]; exact ⟨trivial, l3 hb⟩⟩
      | keep _ _ _ _ vs hf hk hrest =>
        obtain ⟨k1, k2, k3⟩ := hr2 hk
        obtain ⟨l1, l2, l3⟩ := ihs _ vs hrest hr3 ih'
        exact ⟨membersTy_cons (by simp [hk]) k1 l1, fun hf => by simp only [finiteAll, k2 hf, l2 hf, Bool.and_self],
          fun hb => readableMembers_cons (k3 hb) (l3 hb)⟩

theorem pair_typed {env : Env} {H : Heap} {t : Ty} {v : Val} (h : HasTy env H v (.tuple [.prim .str, t])) :
    ∃ k w, v = .tup [.prim (.str k), w] ∧ HasTy env H w t := by
  cases v with
  | tup vs =>
    rcases vs with _ | ⟨a, _ | ⟨w, _ | ⟨x, vs⟩⟩⟩
    · exact h.elim
    · exact h.2.elim
    · cases a with
      | prim p => cases p <;> first | exact ⟨_, w, rfl, h.2.1⟩ | exact h.1.elim
      | _ => exact h.1.elim
    · exact h.2.2.elim
  | _ => exact h.elim

/-- **The value that a document denotes is whole.** -/
theorem decodes_whole (env : Env) (hl : StrictLess env.less) (hclk : 0 < env.clk) (fin back : Bool) : ∀ (j : Json) (t : Ty),
    Furnished env fin back t j → (fin = true → InReach env t j) → (back = true → Stable env t j) →
    ∀ target v, Ready env fin back t target → Decodes env t j target v → Whole env fin back v t := by
  apply lexInd
  intro j t ihj iht hfur hreach hstable target v hr hd
  have down : ∀ t' j', Child env t j t' j' →
      Furnished env fin back t' j' ∧ (fin = true → InReach env t' j') ∧ (back = true → Stable env t' j') ∧ Ready env fin back t' (env.fresh t') ∧
        Ready env fin back t' (env.ctor t') := by
    intro t' j' hc
    refine ⟨fun t2 j2 h2 => hfur t2 j2 (Part.of_child hc h2), fun hf ft n h2 => hreach hf ft n (Part.of_child hc h2),
      fun hb t2 j2 h2 => hstable hb t2 j2 (Part.of_child hc h2), hfur t' j' (Part.of_child hc .self)⟩
  cases hd with
  | prim p _ _ pv h =>
    refine leaf_whole env hclk fin back p j pv h (fun hf ft n hp hj => ?_) (fun hb => hstable hb _ _ .self)
    subst hp; subst hj
    exact hreach hf ft n .self
  | vec t js _ vs h =>
    have hs := whole_all env fin back t js vs h fun j hj v hv => by
      obtain ⟨h1, h2, h3, h4, -⟩ := down t j (.vec t js j hj)
      exact ihj j (by have := List.sizeOf_lt_of_mem hj; simp; omega) t h1 h2 h3 _ v h4 hv
    exact Whole.all hs
  | arr n t js _ vs hn h =>
    have hs := whole_all env fin back t js vs h fun j hj v hv => by
      obtain ⟨h1, h2, h3, h4, -⟩ := down t j (.arr n t js j hj)
      exact ihj j (by have := List.sizeOf_lt_of_mem hj; simp; omega) t h1 h2 h3 _ v h4 hv
    obtain ⟨h1, h2, h3⟩ := Whole.all hs
    exact ⟨⟨by rw [← hn]; exact decodesAll_length h, h1⟩, h2, h3⟩
  | set t js _ vs h =>
    have hs := whole_all env fin back t js vs h fun j hj v hv => by
      obtain ⟨h1, h2, h3, h4, -⟩ := down t j (.set t js j hj)
      exact ihj j (by have := List.sizeOf_lt_of_mem hj; simp; omega) t h1 h2 h3 _ v h4 hv
    obtain ⟨f1, f2, -⟩ := setFold hl vs [] .nil
    obtain ⟨h1, h2, h3⟩ := Whole.all (vs := setOf env.less vs) fun v hv => hs v ((f2 v hv).resolve_right (by simp))
    exact ⟨⟨h1, f1⟩, h2, fun hb => ⟨typed_noaddrAll env _ t h1, h3 hb⟩⟩
  | map o t ms _ kvs h =>
    have hs := whole_entries env fin back t ms kvs h fun p hp v hv => by
      obtain ⟨h1, h2, h3, h4, -⟩ := down t p.2 (.map o t ms p hp)
      exact ihj p.2 (by have := List.sizeOf_lt_of_mem hp; cases p; simp at *; omega) t h1 h2 h3 _ v h4 hv
    obtain ⟨h1, h2, h3⟩ := Whole.vals (kvs := mapOf kvs) fun p hp => by
      exact hs p (mapOf_mem kvs p hp)
    exact ⟨⟨h1, (keysAsc_iff _).2 (mapOf_asc kvs)⟩, h2, h3⟩
  | dict t js _ vs h =>
    have hs := whole_all env fin back _ js vs h fun j hj v hv => by
      obtain ⟨h1, h2, h3, h4, -⟩ := down _ j (.dict t js j hj)
      exact ihj j (by have := List.sizeOf_lt_of_mem hj; simp; omega) _ h1 h2 h3 _ v h4 hv
    refine ⟨?_, fun hf => ?_, fun hb => (hstable hb _ _ .self).elim⟩
    · show ValsTy env (fun _ => none) (vs.map dictEntry) t
      rw [ValsTy_iff]
      intro p hp
      obtain ⟨v, hv, rfl⟩ := List.mem_map.1 hp
      obtain ⟨k, w, rfl, hw⟩ := pair_typed (hs v hv).1
      exact hw
    · show finiteVals (vs.map dictEntry) = true
      rw [finiteVals_iff]
      intro p hp
      obtain ⟨v, hv, rfl⟩ := List.mem_map.1 hp
      obtain ⟨k, w, rfl, hw⟩ := pair_typed (hs v hv).1
      simpa [dictEntry, finite, finiteAll] using (hs _ hv).2.1 hf
  | tuple ts js _ vs h =>
    cases hr with
    | other _ _ h1 => exact absurd rfl (h1 ts)
    | tuple _ _ hr =>
      exact whole_each env fin back js ts _ vs h hr fun i t j ht hj target v hr hd => by
        obtain ⟨h1, h2, h3, -⟩ := down t j (.tuple ts js i t j ht hj)
        exact ihj j (by have := List.sizeOf_lt_of_mem (List.mem_of_getElem? hj); simp; omega) t h1 h2 h3 _ v hr hd
  | variant ts _ _ i t v hi hfail hd =>
    obtain ⟨h1, h2, h3, h4, -⟩ := down t j (.variant ts j t (List.mem_of_getElem? hi))
    obtain ⟨k1, k2, k3⟩ := iht t (by have := List.sizeOf_lt_of_mem (List.mem_of_getElem? hi); simp; omega) h1 h2 h3 _ v h4 hd
    refine ⟨⟨t, hi, k1⟩, k2, fun hb => ⟨t, hi, k3 hb, fun k t' hk ht' pos j' tr hs => ?_⟩⟩
    exact rejects_shape env t' j' (hstable hb _ _ .self i k t t' hk hi ht' _ (shows_shape env v t pos j' tr hs))
  | cls c ms _ vs h =>
    cases hr with
    | other _ _ _ h1 => exact absurd rfl (h1 c)
    | cls _ _ hr =>
      refine whole_members env fin back ms _ _ vs h hr fun m hm i j hf => ?_
      obtain ⟨h1, h2, h3, h4, -⟩ := down m.ty j (.cls c ms m i j hm hf)
      refine ⟨h4, fun target v hr hd => ?_⟩
      exact ihj j (by have := List.sizeOf_lt_of_mem (findMember_mem hf); simp at *; omega) m.ty h1 h2 h3 _ v hr hd
  | uptr t _ _ v hd =>
    obtain ⟨h1, h2, h3, -, h5⟩ := down t j (.uptr t j)
    exact iht t (by simp) h1 h2 h3 _ v h5 hd

end Verif.Core
