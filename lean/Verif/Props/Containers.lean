import Verif.Containers
import Verif.Props.RoundTrip

/-!
# C55, C57, C58: sets, map keys, dictionaries
-/

namespace Verif.Props
open Verif.Core Verif.Numeric Verif.Demo

/-! ## C55 -/

/-- **C55.** Whenever an array is read successfully as a set: the result is strictly ascending (so it has no
duplicates), each of its elements was decoded from an element of the array, and each decoded element is in
the result up to equivalence. `vs` are the decoded elements. -/
theorem C55_set_contents (env : Env) (hless : StrictLess env.less) (t : Ty) (root : Json) (target : Val) (next : Nat) (w : Val)
    (h : deserializeBool env (.set t) root target next = some (true, w)) :
    ∃ (js : List Json) (vs s : List Val), root = .arr js ∧ w = .set s ∧ vs.length = js.length ∧
      (∀ (i : Nat) (j : Json) (v : Val), js[i]? = some j → vs[i]? = some v →
        ∃ st st', deser env root j false t (env.fresh t) [i] [.index i] st = .done true v st') ∧
      s.Pairwise (fun x y => env.less x y = true) ∧ (∀ x ∈ s, x ∈ vs) ∧
      ∀ v ∈ vs, ∃ x ∈ s, env.less v x = false ∧ env.less x v = false := by
  unfold deserializeBool at h
  split at h
  · cases h
  · cases h
  · rename_i ok v st hd
    simp only [Option.some.injEq, Prod.mk.injEq] at h
    obtain ⟨rfl, rfl⟩ := h
    obtain ⟨js, vs, rfl, rfl, hr⟩ := deser_set_done hd
    obtain ⟨h1, h2⟩ := runSame_done hr
    obtain ⟨h3, h4, -, h5⟩ := setFold hless vs [] List.Pairwise.nil
    refine ⟨js, vs, _, rfl, rfl, by simpa using h1, ?_, h3, fun x hx => by simpa using h4 x hx, h5⟩
    intro i j v hj hv
    have := h2 i (deser env (.arr js) j) v (by simp [hj]) hv
    simpa using this

/-- Element documents and the values they are decoded to, independent of the place and of the objects read
before. -/
inductive Decoded (env : Env) (t : Ty) : List Json → List Val → Prop
  | nil : Decoded env t [] []
  | cons {j v js vs} : (∀ root loc segs st, deser env root j false t (env.fresh t) loc segs st = .done true v st) → Decoded env t js vs →
      Decoded env t (j :: js) (v :: vs)

theorem runSame_decoded {env : Env} {t : Ty} {js : List Json} {vs : List Val} (h : Decoded env t js vs) (root : Json) (loc : Loc)
    (segs : List Seg) (st : DState) : ∀ k, runSame env t false (js.map (deser env root)) k loc segs st = .done true vs st := by
  induction h with
  | nil => intro k; simp [runSame]
  | cons hj _ ih => intro k; simp only [List.map_cons, runSame, hj, ih, DRes.map]

/-- **C55.** If distinct values are comparable, two arrays whose elements decode to the same values, in any
order and any number of times, are read as the same set. -/
theorem C55_order_and_multiplicity (env : Env) (hless : StrictLess env.less) (t : Ty) (js js' : List Json) (vs vs' : List Val)
    (hd : Decoded env t js vs) (hd' : Decoded env t js' vs') (hsame : ∀ v, v ∈ vs ↔ v ∈ vs')
    (htri : ∀ x ∈ vs, ∀ y ∈ vs, env.less x y = false → env.less y x = false → x = y) (target target' : Val) (next next' : Nat) :
    ∃ s, deserializeBool env (.set t) (.arr js) target next = some (true, .set s) ∧
      deserializeBool env (.set t) (.arr js') target' next' = some (true, .set s) ∧ ∀ x, x ∈ s ↔ x ∈ vs := by
  have hmem : ∀ us : List Val, (∀ x, x ∈ us ↔ x ∈ vs) → ∀ x, x ∈ setOf env.less us ↔ x ∈ vs := by
    intro us hus x
    obtain ⟨-, h4, -, h5⟩ := setFold hless us [] List.Pairwise.nil
    constructor
    · intro hx
      exact (hus x).1 (by simpa using h4 x hx)
    · intro hx
      obtain ⟨y, hy, h6, h7⟩ := h5 x ((hus x).2 hx)
      have hy' : y ∈ vs := (hus y).1 (by simpa using h4 y hy)
      rw [htri x hx y hy' h6 h7]
      exact hy
  have h1 := hmem vs (fun _ => Iff.rfl)
  have h2 := hmem vs' (fun x => (hsame x).symm)
  have heq : setOf env.less vs = setOf env.less vs' :=
    sorted_unique hless _ _ (setFold hless vs [] List.Pairwise.nil).1 (setFold hless vs' [] List.Pairwise.nil).1 (fun x => by rw [h1, h2])
  refine ⟨setOf env.less vs, ?_, ?_, h1⟩
  · simp only [deserializeBool, deser_set, runSame_decoded hd, DRes.map]
  · simp only [deserializeBool, deser_set, runSame_decoded hd', DRes.map, heq]

theorem demo_less {x y : Val} (h : less x y = true) : (∃ a b, x = .prim (.int a) ∧ y = .prim (.int b) ∧ a < b) ∨
    (∃ a b v w, x = .sptr a v ∧ y = .sptr b w ∧ a < b) ∨ ∃ a b, x = .prim (.str a) ∧ y = .prim (.str b) ∧ strLess a b = true := by
  unfold less at h
  split at h
  · exact .inl ⟨_, _, rfl, rfl, by simpa using h⟩
  · exact .inr (.inl ⟨_, _, _, _, rfl, rfl, by simpa using h⟩)
  · exact .inr (.inr ⟨_, _, rfl, rfl, h⟩)
  · cases h

theorem demo_strict : StrictLess Demo.env.less where
  irrefl := by
    intro x
    by_cases h : less x x = true
    · rcases demo_less h with ⟨a, b, h1, h2, h3⟩ | ⟨a, b, v, w, h1, h2, h3⟩ | ⟨a, b, h1, h2, h3⟩
      · rw [h1] at h2; cases h2; omega
      · rw [h1] at h2; cases h2; omega
      · rw [h1] at h2; cases h2; rw [strLess_irrefl] at h3; cases h3
    · simpa [Demo.env] using h
  trans := by
    intro x y z hxy hyz
    rcases demo_less hxy with ⟨a, b, h1, h2, h3⟩ | ⟨a, b, v, w, h1, h2, h3⟩ | ⟨a, b, h1, h2, h3⟩ <;>
      rcases demo_less hyz with ⟨c, d, h4, h5, h6⟩ | ⟨c, d, v', w', h4, h5, h6⟩ | ⟨c, d, h4, h5, h6⟩ <;>
      rw [h2] at h4 <;> cases h4 <;> subst h1 h5
    · simp only [Demo.env, less, decide_eq_true_eq]; omega
    · simp only [Demo.env, less, decide_eq_true_eq]; omega
    · simp only [Demo.env, less]; exact strLess_trans _ _ _ h3 h6

/-- The documents `3`, `1` and so on. -/
def num (n : Int) : Json := .num (.int n)

theorem decoded_nums (l : List Int) (h : ∀ n ∈ l, int32.InRange n) :
    Decoded Demo.env tInt (l.map num) (l.map fun n => .prim (.int n)) := by
  induction l with
  | nil => exact .nil
  | cons n l ih =>
    refine .cons ?_ (ih fun m hm => h m (by simp [hm]))
    intro root loc segs st
    rw [deser_prim]
    have : desPrim Demo.env (.int int32) (num n) = .ok (.int n) := desInt_ok int32 n (h n (by simp))
    simp only [this]

example : ∃ s, deserializeBool Demo.env (.set tInt) (.arr [num 3, num 1, num 3, num 2]) .nullptr 0 = some (true, .set s) ∧
    deserializeBool Demo.env (.set tInt) (.arr [num 1, num 2, num 3]) .nullptr 7 = some (true, .set s) ∧
    ∀ x, x ∈ s ↔ x ∈ [Val.prim (.int 3), .prim (.int 1), .prim (.int 3), .prim (.int 2)] := by
  refine C55_order_and_multiplicity Demo.env demo_strict tInt [num 3, num 1, num 3, num 2] [num 1, num 2, num 3] _ _
    (decoded_nums [3, 1, 3, 2] (by decide)) (decoded_nums [1, 2, 3] (by decide)) ?_ ?_ _ _ _ _
  · intro v; simp; grind
  · intro x hx y hy h1 h2
    simp only [List.map_cons, List.map_nil, List.mem_cons, List.not_mem_nil, or_false] at hx hy
    rcases hx with rfl | rfl | rfl | rfl <;> rcases hy with rfl | rfl | rfl | rfl <;> simp_all [Demo.env, less]

example : deserializeBool Demo.env (.set tInt) (.arr [num 3, num 1, num 3]) .nullptr 0 = some (true, .set [.prim (.int 1), .prim (.int 3)]) := rfl

/-! ## C57 -/

/-- **C57, what happens.** Whenever an object is read successfully as a map, the keys of the result are the
keys of the document **cut at their first NUL character**; of several members with the same (cut) key the last
one counts. -/
theorem C57_keys_read (env : Env) (o : Bool) (t : Ty) (root : Json) (target : Val) (next : Nat) (w : Val)
    (h : deserializeBool env (.map o t) root target next = some (true, w)) :
    ∃ ms kvs, root = .obj ms ∧ w = .map kvs ∧ Ascending kvs ∧ (∀ k, k ∈ kvs.map (·.1) ↔ ∃ p ∈ ms, p.1.takeWhile (· ≠ 0) = k) ∧
      ∃ vs : List Val, vs.length = ms.length ∧ (∀ (i : Nat) (p : Str × Json) (v : Val), ms[i]? = some p → vs[i]? = some v →
        ∃ st st', deser env root p.2 false t (env.fresh t) [i] [Seg.name (cstr p.1)] st = .done true v st') ∧
        ∀ (i : Nat) (p : Str × Json) (v : Val), ms[i]? = some p → vs[i]? = some v →
          (∀ k q, i < k → ms[k]? = some q → q.1.takeWhile (· ≠ 0) ≠ p.1.takeWhile (· ≠ 0)) → kvs.lookup (p.1.takeWhile (· ≠ 0)) = some v := by
  unfold deserializeBool at h
  split at h
  · cases h
  · cases h
  · rename_i ok v st hd
    simp only [Option.some.injEq, Prod.mk.injEq] at h
    obtain ⟨rfl, rfl⟩ := h
    obtain ⟨ms, kvs, rfl, rfl, hr⟩ := deser_map_done hd
    obtain ⟨h1, h2⟩ := runEntries_done hr
    have hkeys : kvs.map (·.1) = ms.map fun p => p.1.takeWhile (· ≠ 0) := by
      rw [h1]
      simp [Function.comp_def, cstr]
    have hlen : kvs.length = ms.length := by
      have := congrArg List.length hkeys
      simpa using this
    refine ⟨ms, mapOf kvs, rfl, rfl, (keysAsc_iff _).2 (mapOf_asc kvs), ?_, kvs.map (·.2), by simp [hlen], ?_, ?_⟩
    · intro k
      rw [mapOf_keys, hkeys, List.mem_map]
    · intro i p v hp hv
      simp only [List.getElem?_map, Option.map_eq_some_iff] at hv
      obtain ⟨q, hq, rfl⟩ := hv
      have := h2 i (p.1, deser env (.obj ms) p.2) q (by simp [hp]) hq
      simpa using this
    · intro i p v hp hv hlast
      rw [mapOf_lookup]
      simp only [List.getElem?_map, Option.map_eq_some_iff] at hv
      obtain ⟨q, hq, rfl⟩ := hv
      have hget : ∀ k : Nat, (kvs[k]?).map (·.1) = (ms[k]?).map fun p => p.1.takeWhile (· ≠ 0) := by
        intro k
        have := congrArg (·[k]?) hkeys
        simpa using this
      clear h2 hr h1 hd hkeys hlen
      induction kvs generalizing ms i with
      | nil => simp at hq
      | cons r kvs ih =>
        obtain ⟨k1, b⟩ := r
        cases ms with
        | nil => simp at hp
        | cons m ms =>
          cases i with
          | zero =>
            simp only [List.getElem?_cons_zero, Option.some.injEq] at hp hq
            subst hp hq
            have h0 := hget 0
            simp only [List.getElem?_cons_zero, Option.map_some, Option.some.injEq] at h0
            have hn : lastValue (m.1.takeWhile (· ≠ 0)) kvs = none := by
              rw [← Option.not_isSome_iff_eq_none, lastValue_isSome]
              intro hm
              obtain ⟨x, hx, hxk⟩ := List.mem_map.1 hm
              obtain ⟨k, hk⟩ := List.getElem?_of_mem hx
              have h3 := hget (k + 1)
              simp only [List.getElem?_cons_succ, hk, Option.map_some] at h3
              cases hk' : ms[k]? with
              | none => simp [hk'] at h3
              | some y =>
                simp only [hk', Option.map_some, Option.some.injEq] at h3
                exact hlast (k + 1) y (by omega) (by simpa using hk') (by rw [← h3, hxk])
            simp only [lastValue, hn]
            rw [if_pos h0]
          | succ i =>
            simp only [List.getElem?_cons_succ] at hp hq
            have := ih ms i hp (fun k q hk hkq => hlast (k + 1) q (by omega) (by simpa using hkq)) hq (fun k => by simpa using hget (k + 1))
            simp only [lastValue, this]

example : deserializeBool Demo.env (.map true tInt) (.obj [(lit "b", num 1), (lit "a", num 2), (lit "b", num 3)]) .nullptr 0 =
    some (true, .map [(lit "a", .prim (.int 2)), (lit "b", .prim (.int 3))]) := rfl

/-- **C57, negation.** A key that contains a NUL character never survives: whatever document is read as a map,
no key of the result contains NUL. -/
theorem C57_nul_key_lost (env : Env) (o : Bool) (t : Ty) (root : Json) (target : Val) (next : Nat) (kvs : List (Str × Val))
    (h : deserializeBool env (.map o t) root target next = some (true, .map kvs)) (k : Str) (hk : (0 : UInt8) ∈ k) : k ∉ kvs.map (·.1) := by
  obtain ⟨ms, kvs', rfl, hkv, -, hkeys, -⟩ := C57_keys_read env o t root target next _ h
  cases hkv
  intro hm
  obtain ⟨p, hp, rfl⟩ := (hkeys k).1 hm
  have : ∀ (s : Str), (0 : UInt8) ∉ s.takeWhile (· ≠ 0) := by
    intro s hs
    induction s with
    | nil => simp at hs
    | cons c s ih =>
      rw [List.takeWhile_cons] at hs
      split at hs
      · rename_i hc
        rcases List.mem_cons.1 hs with h | h
        · simp [← h] at hc
        · exact ih h
      · simp at hs
  exact this p.1 hk

/-- Two different keys collapse into one. -/
example : serializeToDocument Demo.env (.map true tInt) (.map [(lit "a", .prim (.int 1)), ([97, 0, 98], .prim (.int 2))]) =
      some (some (.obj [(lit "a", num 1), ([97, 0, 98], num 2)])) ∧
    deserializeBool Demo.env (.map true tInt) (.obj [(lit "a", num 1), ([97, 0, 98], num 2)]) .nullptr 0 =
      some (true, .map [(lit "a", .prim (.int 2))]) := ⟨rfl, rfl⟩

/-- **C57.** Keys without NUL survive the round trip, whatever other characters they contain, in ordered and
unordered maps, whatever the iteration order.

Missing: keys with NUL, for which the claim is false (`C57_nul_key_lost`). -/
theorem C57_keys_survive_partial (env : Env) (hfair : env.Fair) (hclk : 0 < env.clk) (hdist : env.DistinctNames) (o : Bool) (t : Ty)
    (kvs : List (Str × Val)) (ht : HasTy env (fun _ => none) (.map kvs) (.map o t)) (hf : ∀ p ∈ kvs, finite p.2 = true)
    (hr : ∀ p ∈ kvs, Readable env p.2 t) (hn : ∀ p ∈ kvs, (0 : UInt8) ∉ p.1) :
    ∃ doc, serializeToDocument env (.map o t) (.map kvs) = some (some doc) ∧
      ∀ next target, deserializeBool env (.map o t) doc target next = some (true, .map kvs) := by
  obtain ⟨doc, h1, h2⟩ := C26_unshared_roundtrip_partial env hfair hclk hdist (.map kvs) (.map o t) ht
    (by simpa only [finite, finiteVals_iff] using hf)
    (by simp only [Readable, ReadableVals_iff]; exact fun p hp => ⟨hn p hp, hr p hp⟩)
  exact ⟨doc, h1, fun next target => (h2 next).2 target⟩

/-- Keys that need escaping in a path, and an empty key. -/
example : ∃ doc, serializeToDocument Demo.env (.map false tInt) (.map [([], .prim (.int 1)), (lit "/~\"", .prim (.int 2))]) = some (some doc) ∧
    ∀ next target, deserializeBool Demo.env (.map false tInt) doc target next = some (true, .map [([], .prim (.int 1)), (lit "/~\"", .prim (.int 2))]) := by
  refine C57_keys_survive_partial Demo.env fair (by decide) demo_distinct false tInt _ ?_ ?_ ?_ ?_
  · simp only [HasTy, ValsTy, PrimTy, and_true]
    exact ⟨⟨by decide, by decide⟩, by unfold Ascending; decide +kernel⟩
  · decide +kernel
  · intro p hp
    simp only [List.mem_cons, List.not_mem_nil, or_false] at hp
    rcases hp with rfl | rfl <;> simp [Readable, LeafGood]
  · decide +kernel

/-! ## C58 -/

/-- **C58, negation.** No dictionary survives: every dictionary with finite content is written as a JSON
object, and every JSON object is rejected when read as a dictionary. -/
theorem C58_dictionary_unreadable (env : Env) (hfair : env.Fair) (H : Heap) (t : Ty) (kvs : List (Str × Val))
    (ht : HasTy env H (.dict kvs) (.dict t)) (hf : ∀ p ∈ kvs, finite p.2 = true) :
    ∃ ms, serializeToDocument env (.dict t) (.dict kvs) = some (some (.obj ms)) ∧
      ∀ next, deserializeThrow env (.dict t) (.obj ms) next = .threw (lit "/") .expectedArray ∧
        ∀ target, deserializeBool env (.dict t) (.obj ms) target next = some (false, target) := by
  obtain ⟨new, j, tr, h1, h2, -⟩ := serOk env hfair H (.dict kvs) (.dict t) [] [] [] ht (by simpa only [finite, finiteVals_iff] using hf)
  cases h2
  rename_i js h3
  refine ⟨js, by simp [serializeToDocument, h1], fun next => ⟨?_, fun target => ?_⟩⟩
  · simp [deserializeThrow, deser_dict, DRes.reject, pathStr, lit]
  · simp [deserializeBool, deser_dict, DRes.reject]

example : ∃ ms, serializeToDocument Demo.env (.dict tInt) (.dict [(lit "k", .prim (.int 1))]) = some (some (.obj ms)) ∧
    ∀ next, deserializeThrow Demo.env (.dict tInt) (.obj ms) next = .threw (lit "/") .expectedArray ∧
      ∀ target, deserializeBool Demo.env (.dict tInt) (.obj ms) target next = some (false, target) :=
  C58_dictionary_unreadable Demo.env fair heap tInt _ (by simp only [HasTy, ValsTy, PrimTy, and_true]; decide) (by decide +kernel)

/-- The same entries as a plain vector of pairs. -/
def asPairs (kvs : List (Str × Val)) : Val := .seq (kvs.map fun p => .tup [.prim (.str p.1), p.2])

/-- **C58.** What the reader does accept for a dictionary is an array of two-element arrays, as it would be
written for a vector of pairs without the special case for dictionaries: this gives the dictionary, with
repeated keys and in the same order.

Missing: the form that the library itself writes (`C58_dictionary_unreadable`). -/
theorem C58_pairs_read_partial (env : Env) (hfair : env.Fair) (hclk : 0 < env.clk) (hdist : env.DistinctNames) (t : Ty) (kvs : List (Str × Val))
    (ht : ∀ p ∈ kvs, HasTy env (fun _ => none) p.2 t ∧ finite p.2 = true ∧ Readable env p.2 t) :
    ∃ doc, serializeToDocument env (.vec (.tuple [.prim .str, t])) (asPairs kvs) = some (some doc) ∧
      ∀ next target, deserializeBool env (.dict t) doc target next = some (true, .dict kvs) := by
  have h1 : HasTy env (fun _ => none) (asPairs kvs) (.vec (.tuple [.prim .str, t])) := by
    simp only [asPairs, HasTy, AllTy_iff]
    intro v hv
    obtain ⟨p, hp, rfl⟩ := List.mem_map.1 hv
    simp only [HasTy, HasTys, PrimTy, and_true, true_and]
    exact (ht p hp).1
  have h2 : finite (asPairs kvs) = true := by
    simp only [asPairs, finite, finiteAll_iff]
    intro v hv
    obtain ⟨p, hp, rfl⟩ := List.mem_map.1 hv
    simp [finite, finiteAll, (ht p hp).2.1]
  have h3 : Readable env (asPairs kvs) (.vec (.tuple [.prim .str, t])) := by
    simp only [asPairs, Readable, ReadableAll_iff]
    intro v hv
    obtain ⟨p, hp, rfl⟩ := List.mem_map.1 hv
    simp only [Readable, Readables, LeafGood, and_true, true_and]
    exact (ht p hp).2.2
  obtain ⟨doc, h4, h5⟩ := C26_unshared_roundtrip_partial env hfair hclk hdist _ _ h1 h2 h3
  refine ⟨doc, h4, fun next target => ?_⟩
  have h6 := (h5 next).2 target
  unfold deserializeBool at h6
  split at h6
  · cases h6
  · cases h6
  · rename_i ok v st hd
    simp only [Option.some.injEq, Prod.mk.injEq] at h6
    obtain ⟨rfl, rfl⟩ := h6
    rw [deser_vec] at hd
    split at hd
    · rename_i js
      obtain ⟨vs, h7, h8⟩ := DRes.map_done hd
      simp only [asPairs, Val.seq.injEq] at h8
      subst h8
      simp only [deserializeBool, deser_dict, h7, DRes.map, List.map_map]
      simp [Function.comp_def, dictEntry]
    · exact (DRes.reject_true hd).elim

example : ∃ doc, serializeToDocument Demo.env (.vec (.tuple [tStr, tInt])) (asPairs [(lit "k", .prim (.int 1)), (lit "a", .prim (.int 2)), (lit "k", .prim (.int 3))]) =
      some (some doc) ∧
    ∀ next target, deserializeBool Demo.env (.dict tInt) doc target next =
      some (true, .dict [(lit "k", .prim (.int 1)), (lit "a", .prim (.int 2)), (lit "k", .prim (.int 3))]) := by
  refine C58_pairs_read_partial Demo.env fair (by decide) demo_distinct tInt _ ?_
  intro p hp
  simp only [List.mem_cons, List.not_mem_nil, or_false] at hp
  rcases hp with rfl | rfl | rfl <;> exact ⟨by simp only [HasTy, PrimTy]; decide, by decide, by simp [Readable, LeafGood]⟩

end Verif.Props
