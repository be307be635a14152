import Verif.ReadParts
import Verif.Props.Read

/-!
# Documents are read part by part (C118)

The specification: `Together` says how the outcome for the whole follows from the outcomes for the parts, `Below` what becomes of the path of an error.
-/

namespace Verif.Core

/-- `path` is the path `p` from a part, seen from the whole; `step` leads to the part, and the part itself is called `/`. -/
def Below (step p path : Str) : Prop := path = step ++ p ∨ (p = lit "/" ∧ path = step)

/-- If all parts are read, their values make up the value of the whole; otherwise the first part that is not read decides: its error is the error of the whole, with the
path related by `rel`. -/
inductive Together (rel : Nat → Str → Str → Prop) (build : List Val → Val) : List Thrown → Thrown → Prop
  | all (vs : List Val) : Together rel build (vs.map .returned) (.returned (build vs))
  | first (vs : List Val) (p : Str) (e : Err) (rest : List Thrown) (path : Str) : rel vs.length p path →
      Together rel build (vs.map .returned ++ .threw p e :: rest) (.threw path e)
  | undefined (vs : List Val) (rest : List Thrown) : Together rel build (vs.map .returned ++ .ub :: rest) .ub

theorem outs_cases (outs : List Thrown) : (∃ vs : List Val, outs = vs.map .returned) ∨ (∃ (vs : List Val) (p : Str) (e : Err) (rest : List Thrown), outs = vs.map .returned ++ .threw p e :: rest) ∨
    ∃ (vs : List Val) (rest : List Thrown), outs = vs.map .returned ++ .ub :: rest := by
  induction outs with
  | nil => exact .inl ⟨[], rfl⟩
  | cons o outs ih =>
    cases o with
    | ub => exact .inr (.inr ⟨[], outs, rfl⟩)
    | threw p e => exact .inr (.inl ⟨[], p, e, outs, rfl⟩)
    | returned v =>
      rcases ih with ⟨vs, h⟩ | ⟨vs, p, e, rest, h⟩ | ⟨vs, rest, h⟩
      · exact .inl ⟨v :: vs, by rw [h]; rfl⟩
      · exact .inr (.inl ⟨v :: vs, p, e, rest, by rw [h]; rfl⟩)
      · exact .inr (.inr ⟨v :: vs, rest, by rw [h]; rfl⟩)

theorem together_of (ps : List (List Seg × PRes Val)) (rel : Nat → Str → Str → Prop) (build : List Val → Val)
    (hrel : ∀ (i : Nat) g r s, ps[i]? = some (g, r) → rel i (pathStr s) (pathStr (s ++ g))) :
    Together rel build (ps.map (·.2.thrown)) ((seqParts ps).map build).thrown := by
  rcases outs_cases (ps.map (·.2.thrown)) with ⟨vs, h⟩ | ⟨vs, p, e, rest, h⟩ | ⟨vs, rest, h⟩
  · rw [seqParts_returned h, h]; exact .all vs
  · obtain ⟨g, r, s, h1, h2, h3⟩ := seqParts_threw h
    rw [h3, h]
    exact .first vs p e rest _ (h2 ▸ hrel _ g r s h1)
  · rw [seqParts_ub h, h]; exact .undefined vs rest

theorem path_below (s : List Seg) (x : Seg) : Below (segText x) (pathStr s) (pathStr (s ++ [x])) := by
  have h2 : pathStr (s ++ [x]) = segText x ++ segsText s.reverse := by
    simp [pathStr, segsText]
  rw [h2]
  by_cases hs : s = []
  · subst hs; exact .inr ⟨rfl, by simp [segsText]⟩
  · exact .inl (by rw [pathStr, if_neg hs])

theorem index_text (i : Nat) (h : i < 10 ^ 19) : segText (.index i) = lit "/" ++ decimal i := by
  rw [segText, if_pos (decimal_length_le 18 i (by omega))]; rfl

/-- The step to a member with this name (path.hpp:17-45, detail/segment.hpp:12-26): an empty name is written as an index. -/
def stepTo (name : Str) : Str := if name = [] then lit "/0" else lit "/" ++ name

theorem name_text (k : Str) : segText (Seg.name k) = stepTo k := by
  unfold Seg.name stepTo
  split
  · with_unfolding_all rfl
  · rfl

theorem returned_not {vs vs' : List Val} {o : Thrown} {rest : List Thrown} (ho : ∀ v, o ≠ .returned v) : vs.map Thrown.returned ≠ vs'.map .returned ++ o :: rest := by
  intro h
  have : o ∈ vs.map Thrown.returned := by rw [h]; simp
  obtain ⟨v, -, h⟩ := List.mem_map.1 this
  exact ho v h.symm

theorem returned_inj {vs vs' : List Val} (h : vs.map Thrown.returned = vs'.map .returned) : vs = vs' := by
  induction vs generalizing vs' with
  | nil => cases vs' with
    | nil => rfl
    | cons _ _ => cases h
  | cons v vs ih => cases vs' with
    | nil => cases h
    | cons v' vs' =>
      simp only [List.map_cons, List.cons.injEq, Thrown.returned.injEq] at h
      rw [h.1, ih h.2]

theorem returned_iff {rel : Nat → Str → Str → Prop} {build : List Val → Val} {outs : List Thrown} {r : Thrown} (h : Together rel build outs r) (w : Val) :
    r = .returned w ↔ ∃ vs, outs = vs.map .returned ∧ w = build vs := by
  cases h with
  | all vs =>
    refine ⟨fun h => ⟨vs, rfl, by cases h; rfl⟩, fun ⟨vs', h1, h2⟩ => ?_⟩
    rw [h2, returned_inj h1]
  | first vs p e rest path hr => exact ⟨nofun, fun ⟨vs', h1, _⟩ => absurd h1.symm (returned_not nofun)⟩
  | undefined vs rest => exact ⟨nofun, fun ⟨vs', h1, _⟩ => absurd h1.symm (returned_not nofun)⟩

theorem first_unique {o o' : Thrown} (ho : ∀ v, o ≠ .returned v) (ho' : ∀ v, o' ≠ .returned v) {vs vs' : List Val} {rest rest' : List Thrown}
    (h : vs.map .returned ++ o :: rest = vs'.map .returned ++ o' :: rest') : vs = vs' ∧ o = o' ∧ rest = rest' := by
  induction vs generalizing vs' with
  | nil => cases vs' with
    | nil => simp at h; exact ⟨rfl, h⟩
    | cons v vs' => simp only [List.map_nil, List.nil_append, List.map_cons, List.cons_append, List.cons.injEq] at h; exact absurd h.1 (ho v)
  | cons v vs ih => cases vs' with
    | nil => simp only [List.map_nil, List.nil_append, List.map_cons, List.cons_append, List.cons.injEq] at h; exact absurd h.1.symm (ho' v)
    | cons v' vs' =>
      simp only [List.map_cons, List.cons_append, List.cons.injEq, Thrown.returned.injEq] at h
      obtain ⟨h1, h2⟩ := ih h.2
      exact ⟨by rw [h.1, h1], h2⟩

theorem threw_of {rel : Nat → Str → Str → Prop} {build : List Val → Val} {r : Thrown} {vs : List Val} {p : Str} {e : Err} {rest : List Thrown}
    (h : Together rel build (vs.map .returned ++ .threw p e :: rest) r) : ∃ path, r = .threw path e ∧ rel vs.length p path := by
  generalize ho : vs.map .returned ++ .threw p e :: rest = outs at h
  cases h with
  | all vs' => exact absurd ho.symm (returned_not nofun)
  | first vs' p' e' rest' path hr =>
    obtain ⟨rfl, h1, -⟩ := first_unique (fun _ h => by cases h) (fun _ h => by cases h) ho
    cases h1
    exact ⟨path, rfl, hr⟩
  | undefined vs' rest' => obtain ⟨-, h1, -⟩ := first_unique (fun _ h => by cases h) (fun _ h => by cases h) ho; cases h1

end Verif.Core

namespace Verif.Props
open Verif.Core Verif.Numeric Verif.EnumConv Verif.Demo

/-- `{"id": 7}` -/
def idItem : Json := .obj [(lit "id", .num (.int 7))]

/-- **C118, vectors.** -/
theorem C118_vector (env : Env) (hu : env.Unshared) (t : Ty) (ht : t.unshared = true) (js : List Json) (hl : js.length ≤ 10 ^ 19) (n : Nat) :
    Together (fun i => Below (lit "/" ++ decimal i)) .seq (js.map (deserializeThrow env t · n)) (deserializeThrow env (.vec t) (.arr js) n) := by
  rw [deserializeThrow_thrown env hu (.vec t) ht, pd_vec env hu _ _ _ js t ht, pSame_parts env hu t ht, ← sameParts_thrown env hu t ht js 0 n]
  refine together_of _ _ _ fun i g r s h => ?_
  obtain ⟨rfl, hi⟩ := sameParts_get h
  rw [Nat.zero_add, ← index_text i (by omega)]
  exact path_below s _

/-- `[{"id": 7}, {"id": 1, "note": 5}, {}]`: the second item decides. -/
example : Together (fun i => Below (lit "/" ++ decimal i)) .seq ([idItem, badNote, .obj []].map (deserializeThrow plainEnv (.cls 1) · 0))
      (deserializeThrow plainEnv (.vec (.cls 1)) (.arr [idItem, badNote, .obj []]) 0) ∧
    ∃ v e o, [idItem, badNote, .obj []].map (deserializeThrow plainEnv (.cls 1) · 0) = [.returned v, .threw (lit "/note") e, o] ∧
      deserializeThrow plainEnv (.vec (.cls 1)) (.arr [idItem, badNote, .obj []]) 0 = .threw (lit "/1/note") e :=
  ⟨C118_vector plainEnv plainEnv_unshared (.cls 1) rfl _ (by decide) 0, _, _, _, rfl, rfl⟩

/-- **C118, when a vector is read.** -/
theorem C118_vector_read (env : Env) (hu : env.Unshared) (t : Ty) (ht : t.unshared = true) (js : List Json) (hl : js.length ≤ 10 ^ 19) (n : Nat) (w : Val) :
    deserializeThrow env (.vec t) (.arr js) n = .returned w ↔ ∃ vs, js.map (deserializeThrow env t · n) = vs.map .returned ∧ w = .seq vs :=
  returned_iff (C118_vector env hu t ht js hl n) w

example (v v' : Val) (h : deserializeThrow plainEnv (.cls 1) idItem 0 = .returned v) (h' : deserializeThrow plainEnv (.cls 1) (.obj [(lit "id", .num (.int 8))]) 0 = .returned v') :
    deserializeThrow plainEnv (.vec (.cls 1)) (.arr [idItem, .obj [(lit "id", .num (.int 8))]]) 0 = .returned (.seq [v, v']) :=
  (C118_vector_read plainEnv plainEnv_unshared (.cls 1) rfl _ (by decide) 0 _).2 ⟨[v, v'], by simp [h, h'], rfl⟩

/-- **C118, which error of a vector is thrown.** -/
theorem C118_vector_threw (env : Env) (hu : env.Unshared) (t : Ty) (ht : t.unshared = true) (js : List Json) (hl : js.length ≤ 10 ^ 19) (n : Nat) (vs : List Val) (p : Str)
    (e : Err) (rest : List Thrown) (h : js.map (deserializeThrow env t · n) = vs.map .returned ++ .threw p e :: rest) :
    ∃ path, deserializeThrow env (.vec t) (.arr js) n = .threw path e ∧ Below (lit "/" ++ decimal vs.length) p path :=
  threw_of (h ▸ C118_vector env hu t ht js hl n)

example : ∃ path e, deserializeThrow plainEnv (.vec (.cls 1)) (.arr [idItem, badNote]) 0 = .threw path e ∧ Below (lit "/1") (lit "/note") path := by
  obtain ⟨path, h1, h2⟩ := C118_vector_threw plainEnv plainEnv_unshared (.cls 1) rfl [idItem, badNote] (by decide) 0 [_] (lit "/note") _ [] rfl
  exact ⟨path, _, h1, h2⟩

/-- **C118, sets.** -/
theorem C118_set (env : Env) (hu : env.Unshared) (t : Ty) (ht : t.unshared = true) (js : List Json) (hl : js.length ≤ 10 ^ 19) (n : Nat) :
    Together (fun i => Below (lit "/" ++ decimal i)) (fun vs => .set (setOf env.less vs)) (js.map (deserializeThrow env t · n))
      (deserializeThrow env (.set t) (.arr js) n) := by
  rw [deserializeThrow_thrown env hu (.set t) ht, pd_set env hu _ _ _ js t ht, pSame_parts env hu t ht, ← sameParts_thrown env hu t ht js 0 n]
  refine together_of _ _ _ fun i g r s h => ?_
  obtain ⟨rfl, hi⟩ := sameParts_get h
  rw [Nat.zero_add, ← index_text i (by omega)]
  exact path_below s _

example : Together (fun i => Below (lit "/" ++ decimal i)) (fun vs => .set (setOf plainEnv.less vs)) [.returned (.prim (.int 3)), .returned (.prim (.int 1)), .returned (.prim (.int 3))]
    (.returned (.set [.prim (.int 1), .prim (.int 3)])) :=
  C118_set plainEnv plainEnv_unshared tInt rfl [.num (.int 3), .num (.int 1), .num (.int 3)] (by decide) 0

/-- **C118, dictionaries stored as vectors of pairs.** -/
theorem C118_dictionary (env : Env) (hu : env.Unshared) (t : Ty) (ht : t.unshared = true) (js : List Json) (hl : js.length ≤ 10 ^ 19) (n : Nat) :
    Together (fun i => Below (lit "/" ++ decimal i)) (fun vs => .dict (vs.map dictEntry)) (js.map (deserializeThrow env (.tuple [.prim .str, t]) · n))
      (deserializeThrow env (.dict t) (.arr js) n) := by
  have ht' : (Ty.tuple [.prim .str, t]).unshared = true := by simpa [Ty.unshared, Ty.unshareds] using ht
  rw [deserializeThrow_thrown env hu (.dict t) ht, pd_dict env hu _ _ _ js t ht, pSame_parts env hu _ ht', ← sameParts_thrown env hu _ ht' js 0 n]
  refine together_of _ _ _ fun i g r s h => ?_
  obtain ⟨rfl, hi⟩ := sameParts_get h
  rw [Nat.zero_add, ← index_text i (by omega)]
  exact path_below s _

example : ∃ e, Together (fun i => Below (lit "/" ++ decimal i)) (fun vs => .dict (vs.map dictEntry))
    [.returned (.tup [.prim (.str (lit "a")), .prim (.int 1)]), .threw (lit "/0") e] (.threw (lit "/1/0") e) :=
  ⟨_, C118_dictionary plainEnv plainEnv_unshared tInt rfl [.arr [.str (lit "a"), .num (.int 1)], .arr [.num (.int 2), .num (.int 2)]] (by decide) 0⟩

/-- **C118, arrays.** An array of another length is refused as a whole. -/
theorem C118_array (env : Env) (hu : env.Unshared) (t : Ty) (ht : t.unshared = true) (js : List Json) (hl : js.length ≤ 10 ^ 19) (n : Nat) :
    Together (fun i => Below (lit "/" ++ decimal i)) .tup (js.map (deserializeThrow env t · n)) (deserializeThrow env (.arr js.length t) (.arr js) n) ∧
    ∀ k, js.length ≠ k → deserializeThrow env (.arr k t) (.arr js) n = .threw (lit "/") (.sizeMismatch k js.length) := by
  refine ⟨?_, fun k hk => ?_⟩
  · rw [deserializeThrow_thrown env hu (.arr _ t) ht, pd_arr env hu _ _ _ js _ t ht, if_pos rfl, pSame_parts env hu t ht, ← sameParts_thrown env hu t ht js 0 n]
    have h := together_of (sameParts env t js 0) (fun i => Below (lit "/" ++ decimal i)) .tup fun i g r s h => by
      obtain ⟨rfl, hi⟩ := sameParts_get h
      rw [Nat.zero_add, ← index_text i (by omega)]
      exact path_below s _
    have hs : (seqParts (sameParts env t js 0)).Sure := by
      rw [← pSame_parts env hu t ht]
      exact pSame_sure (fun j _ => sure env hu j t ht) 0 []
    cases hq : seqParts (sameParts env t js 0) with
    | ub => rw [hq] at h; exact h
    | threw s e => rw [hq] at h; exact h
    | done ok vs =>
      cases ok with
      | false => exact absurd hq (hs vs)
      | true => rw [hq] at h; exact h
  · rw [deserializeThrow_thrown env hu (.arr k t) ht, pd_arr env hu _ _ _ js k t ht, if_neg hk]
    rfl

example : Together (fun i => Below (lit "/" ++ decimal i)) .tup [.returned (.prim (.int 3)), .returned (.prim (.int 1))] (.returned (.tup [.prim (.int 3), .prim (.int 1)])) ∧
    deserializeThrow plainEnv (.arr 3 tInt) (.arr [.num (.int 3), .num (.int 1)]) 0 = .threw (lit "/") (.sizeMismatch 3 2) :=
  have h := C118_array plainEnv plainEnv_unshared tInt rfl [.num (.int 3), .num (.int 1)] (by decide) 0
  ⟨h.1, h.2 3 (by decide)⟩

/-- **C118 (partial), tuples**, if the elements of a new tuple are like new objects of their types. -/
theorem C118_tuple_partial (env : Env) (hu : env.Unshared) (ts : List Ty) (ht : ∀ t ∈ ts, t.unshared = true) (js : List Json) (hl : js.length ≤ 10 ^ 19)
    (hnew : ∀ (i : Nat) (t : Ty), ts[i]? = some t → ((env.fresh (.tuple ts)).components[i]?).getD (env.fresh t) = env.fresh t) (n : Nat) :
    (js.length = ts.length → Together (fun i => Below (lit "/" ++ decimal i)) .tup ((js.zip ts).map fun p => deserializeThrow env p.2 p.1 n)
      (deserializeThrow env (.tuple ts) (.arr js) n)) ∧
    (js.length ≠ ts.length → deserializeThrow env (.tuple ts) (.arr js) n = .threw (lit "/") (.sizeMismatch ts.length js.length)) := by
  have ht' : Ty.unshareds ts = true := (Ty.unshareds_iff ts).2 ht
  refine ⟨fun h0 => ?_, fun hk => ?_⟩
  · rw [deserializeThrow_thrown env hu (.tuple ts) ht', pd_tuple env hu _ _ _ js ts ht', if_pos h0, pTuple_parts env hu js ts ht _ hnew,
      ← tupleParts_thrown env hu js ts ht 0 n]
    refine together_of _ _ _ fun i g r s h => ?_
    obtain ⟨rfl, hi⟩ := tupleParts_get h
    rw [Nat.zero_add, ← index_text i (by omega)]
    exact path_below s _
  · rw [deserializeThrow_thrown env hu (.tuple ts) ht', pd_tuple env hu _ _ _ js ts ht', if_neg hk]
    rfl

example : ∃ e, Together (fun i => Below (lit "/" ++ decimal i)) .tup [.returned (.prim (.int 3)), .threw (lit "/note") e] (.threw (lit "/1/note") e) :=
  ⟨_, (C118_tuple_partial plainEnv plainEnv_unshared [tInt, .cls 1] (by decide) [.num (.int 3), badNote] (by decide) (fun i t _ => rfl) 0).1 rfl⟩

/-- **C118, maps.** Keys end at the first NUL character (C57). -/
theorem C118_map (env : Env) (hu : env.Unshared) (o : Bool) (t : Ty) (ht : t.unshared = true) (ms : List (Str × Json)) (n : Nat) :
    Together (fun i p path => ∃ q, ms[i]? = some q ∧ Below (stepTo (cstr q.1)) p path) (fun vs => .map (mapOf ((ms.map fun q => cstr q.1).zip vs)))
      (ms.map fun q => deserializeThrow env t q.2 n) (deserializeThrow env (.map o t) (.obj ms) n) := by
  rw [deserializeThrow_thrown env hu (.map o t) ht, pd_map env hu _ _ _ ms o t ht, pEntries_parts env hu t ht]
  have h1 : (ms.map fun q => deserializeThrow env t q.2 n) = (entryParts env t ms).map (·.2.thrown) := by
    simp only [entryParts, List.map_map, deserializeThrow_thrown env hu t ht]; rfl
  have h2 : ∀ r : PRes (List Val), ((r.map fun vs => (ms.map fun p => cstr p.1).zip vs).map fun kvs => Val.map (mapOf kvs)) =
      r.map fun vs => .map (mapOf ((ms.map fun q => cstr q.1).zip vs)) := fun r => by cases r <;> rfl
  rw [h1, h2]
  refine together_of _ _ _ fun i g r s h => ?_
  simp only [entryParts, List.getElem?_map, Option.map_eq_some_iff, Prod.mk.injEq] at h
  obtain ⟨q, h3, rfl, -⟩ := h
  refine ⟨q, h3, ?_⟩
  rw [← name_text]
  exact path_below s _

example : ∃ e, Together (fun i p path => ∃ q, [(lit "k", idItem), (lit "", badNote)][i]? = some q ∧ Below (stepTo (cstr q.1)) p path)
    (fun vs => .map (mapOf ([lit "k", lit ""].zip vs))) ([idItem, badNote].map (deserializeThrow plainEnv (.cls 1) · 0)) (.threw (lit "/0/note") e) :=
  ⟨_, C118_map plainEnv plainEnv_unshared true (.cls 1) rfl [(lit "k", idItem), (lit "", badNote)] 0⟩

/-- **C118 (partial), pointers**, if `T()` and a new variable `T t;` are alike: the object is read as if it were alone, and errors have the same path. -/
theorem C118_pointer_partial (env : Env) (hu : env.Unshared) (t : Ty) (ht : t.unshared = true) (hc : env.ctor t = env.fresh t) (j : Json) (n : Nat) :
    (∀ v, deserializeThrow env t j n = .returned v → deserializeThrow env (.uptr t) j n = .returned (.uptr v)) ∧
    (∀ p e, deserializeThrow env t j n = .threw p e → deserializeThrow env (.uptr t) j n = .threw p e) ∧
    (deserializeThrow env t j n = .ub → deserializeThrow env (.uptr t) j n = .ub) := by
  rw [deserializeThrow_thrown env hu t ht, deserializeThrow_thrown env hu (.uptr t) ht, pd_uptr env hu _ _ _ j t ht, hc]
  have hs := sure env hu j t ht (env.fresh t) []
  cases hp : pd env j true t (env.fresh t) [] with
  | ub => exact ⟨fun v h => (by cases h), fun p e h => (by cases h), fun _ => rfl⟩
  | threw s e => exact ⟨fun v h => (by cases h), fun p e h => (by cases h; rfl), fun h => (by cases h)⟩
  | done ok v =>
    cases ok with
    | false => exact absurd hp (hs v)
    | true => exact ⟨fun v h => (by cases h; rfl), fun p e h => (by cases h), fun h => (by cases h)⟩

example : ∃ e, deserializeThrow plainEnv (.uptr (.cls 1)) badNote 0 = .threw (lit "/note") e :=
  ⟨_, (C118_pointer_partial plainEnv plainEnv_unshared (.cls 1) rfl rfl badNote 0).2.1 _ _ rfl⟩

/-- The outcome for a member variable: what is read for the member of this name; without one, an optional variable is empty, one with a default value is new, and any other is an error
at the object itself. -/
def memberOutcome (env : Env) (fs : List (Str × Json)) (n : Nat) (m : Member) : Thrown :=
  match fs.lookup m.name with
  | some j =>
      (match deserializeThrow env m.ty j n with
      | .returned v => .returned (if m.kind = .optional then .present v else v)
      | o => o)
  | none =>
      match m.kind with
      | .optional => .returned .absent
      | .default => .returned (env.fresh m.ty)
      | .required => .threw (lit "/") (.missing m.name)

/-- **C118 (partial), classes**, if the member variables of a new object are like new objects of their types: the constructor of the class must not give them other values (`C118_initial`). -/
theorem C118_class_partial (env : Env) (hu : env.Unshared) (c : Nat) (fs : List (Str × Json))
    (hnew : ∀ (i : Nat) (m : Member), (env.members c)[i]? = some m → m.kind ≠ .optional → ((env.fresh (.cls c)).members[i]?).getD (env.fresh m.ty) = env.fresh m.ty) (n : Nat) :
    Together (fun i p path => ∃ m, (env.members c)[i]? = some m ∧ if fs.lookup m.name = none then path = p else Below (stepTo (cstr m.name)) p path) .obj
      ((env.members c).map (memberOutcome env fs n)) (deserializeThrow env (.cls c) (.obj fs) n) := by
  rw [deserializeThrow_thrown env hu (.cls c) rfl, pd_cls env hu, pMembers_parts env hu fs _ (fun m hm => hu c m hm) _ hnew]
  have h1 : (env.members c).map (memberOutcome env fs n) = ((env.members c).map (memberPart env fs)).map (·.2.thrown) := by
    rw [List.map_map]
    refine List.map_congr_left fun m hm => ?_
    simp only [Function.comp, memberOutcome, memberPart]
    cases hf : findMember m.name fs with
    | none =>
      rw [lookup_findMember_none hf]
      cases m.kind <;> rfl
    | some r =>
      obtain ⟨i, j⟩ := r
      rw [lookup_findMember hf]
      simp only
      rw [deserializeThrow_thrown env hu m.ty (hu c m hm)]
      cases pd env j true m.ty (env.fresh m.ty) [] <;> rfl
  rw [h1]
  refine together_of _ _ _ fun i g r s h => ?_
  rw [List.getElem?_map, Option.map_eq_some_iff] at h
  obtain ⟨m, h2, h3⟩ := h
  refine ⟨m, h2, ?_⟩
  cases hf : findMember m.name fs with
  | none =>
    rw [if_pos (lookup_findMember_none hf)]
    rw [memberPart, hf] at h3
    simp only at h3
    have : g = [] := by cases hk : m.kind <;> rw [hk] at h3 <;> cases h3 <;> rfl
    rw [this, List.append_nil]
  | some q =>
    obtain ⟨k, j⟩ := q
    rw [if_neg (by rw [lookup_findMember hf]; exact nofun)]
    rw [memberPart, hf] at h3
    cases h3
    rw [← name_text]
    exact path_below s _

/-- `{"note": "n"}`: the missing `id` is an error at the object itself. -/
example : Together (fun i p path => ∃ m, (plainEnv.members 1)[i]? = some m ∧ if [(lit "note", Json.str (lit "n"))].lookup m.name = none then path = p
      else Below (stepTo (cstr m.name)) p path) .obj ((plainEnv.members 1).map (memberOutcome plainEnv [(lit "note", .str (lit "n"))] 0))
    (.threw (lit "/") (.missing (lit "id"))) :=
  C118_class_partial plainEnv plainEnv_unshared 1 [(lit "note", .str (lit "n"))] (fun _ _ _ _ => rfl) 0

/-- Class 0 has a member of class 1, which has a member with a default value; the constructor of class 0 makes it 7 instead of 0. -/
def initEnv : Env := { Demo.env with
  classes := fun n => match n with
    | 0 => ⟨lit "Outer", [⟨lit "a", .required, .cls 1⟩]⟩
    | 1 => ⟨lit "Inner", [⟨lit "d", .default, tInt⟩]⟩
    | _ => ⟨lit "Empty", []⟩
  fresh := fun t => match t with
    | .cls 0 => .obj [.obj [.prim (.int 7)]]
    | .cls 1 => .obj [.prim (.int 0)]
    | _ => .prim .null }

/-- **C118 is false for classes in general**: what the constructor of a class put into a member variable may remain in it, so the value is not made up of the values of the parts. -/
theorem C118_initial (n : Nat) : deserializeThrow initEnv (.cls 1) (.obj []) n = .returned (.obj [.prim (.int 0)]) ∧
    deserializeThrow initEnv (.cls 0) (.obj [(lit "a", .obj [])]) n = .returned (.obj [.obj [.prim (.int 7)]]) := ⟨rfl, rfl⟩

/-- **C118 is false with shared pointers**: a part with a reference is not read alone as it is in the document (alone, the pointer silently stays what it was). -/
theorem C118_shared (n : Nat) : ∃ j v, deserializeThrow Demo.env (.sptr tInt) j n = .returned v ∧
    ∃ a w w', deserializeThrow Demo.env (.vec (.sptr tInt)) (.arr [.num (.int 5), j]) n = .returned (.seq [.sptr a w, w']) ∧ w' = .sptr a w ∧ w' ≠ v :=
  ⟨.obj [(lit "$ref", .str (lit "/0"))], _, rfl, _, _, _, rfl, rfl, by intro h; cases h⟩

end Verif.Props
