import Verif.Props.RefKey
import Verif.ConveysTyped

/-!
# C104: a reference is written for the same object only

The writers know an object again by its address (detail/output_context.hpp:10, detail/references.hpp: the table is ordered by
`operator<` of `std::shared_ptr<void>`, which compares addresses). Different objects may have the same address: an object and its first
member (with the aliasing constructor of `std::shared_ptr`), an object of a derived class and the object of the base class in it.
-/

namespace Verif.Props
open Verif.Core Verif.Numeric Verif.Demo

/-- `std::tuple<std::shared_ptr<T>, std::shared_ptr<U>>` -/
abbrev pairOfShared (t u : Ty) : Ty := .tuple [.sptr t, .sptr u]

/-- A value without shared objects, written and read at a place where nothing was before. -/
theorem alone_back (env : Env) (hfair : env.Fair) (hclk : 0 < env.clk) (hdist : env.DistinctNames) (t : Ty) (v : Val)
    (ht : HasTy env (fun _ => none) v t) (hf : finite v = true) (hr : Readable env v t) (htop : t.topShared = false) (hkey : lit "$ref" ∉ topKeys env v t)
    (segs : List Seg) (σ : STab) (hσ : ∀ a ∈ σ.keys, ∀ b ∈ σ.keys, a = b) : ∃ j, ser env v t segs σ = .done σ (some j) ∧ refMember j = none ∧
      ∀ root loc (st : DState), 0 < st.next → (∀ ℓ ∈ st.locs, ¬ loc <:+ ℓ) → (∀ exc target segs', deser env root j exc t target loc segs' st = .done true v st) := by
  have hno : addrs v = [] := typed_noaddr env v t ht
  obtain ⟨new, j, tr, h1, h2, h3⟩ := serOk env hfair _ v t segs [] σ ht hf
  have hnew := (h3.noaddr (segs' := []) (pos' := []) (res' := fun _ => none)).1 hno
  subst hnew
  refine ⟨j, h1, noRef env v t [] j tr htop hkey h2, fun root loc st hn hst => ?_⟩
  obtain ⟨ρ, st', hd, hs⟩ := readBack env hfair hclk hdist _ root (fun _ => False) v t segs loc σ _ j (fun _ => 0) st ht hf hr
    (by simp [hno]) (fun h => absurd hno h) h1 (fun h => absurd hno h) ⟨fun a ha b hb _ => hσ a ha b hb, fun _ _ => hn, fun _ _ _ _ h => nomatch h⟩
    (fun _ _ _ h => h.elim) hst
  intro exc target segs'
  rw [hd, rename_noaddr ρ v hno, hs.idle hno]

/-- The document of two shared objects and what is read from it, by the addresses and types. -/
theorem two_back (env : Env) (hfair : env.Fair) (hclk : 0 < env.clk) (hdist : env.DistinctNames) (a b : Nat) (t u : Ty) (v w : Val)
    (ht : HasTy env (fun _ => none) v t) (hf : finite v = true) (hr : Readable env v t) (htop : t.topShared = false) (hkey : lit "$ref" ∉ topKeys env v t)
    (hw : a ≠ b → HasTy env (fun _ => none) w u ∧ finite w = true ∧ Readable env w u ∧ u.topShared = false ∧ lit "$ref" ∉ topKeys env w u) :
    ∃ doc, serializeToDocument env (pairOfShared t u) (.tup [.sptr a v, .sptr b w]) = some (some doc) ∧
      ∀ exc target next, ∃ st, deser env doc doc exc (pairOfShared t u) target [] [] ⟨[], next⟩ =
        if a ≠ b then .done true (.tup [.sptr next v, .sptr (next + 1) w]) st
        else if t = u then .done true (.tup [.sptr next v, .sptr next v]) st else .ub := by
  obtain ⟨j, h1, h2, h3⟩ := alone_back env hfair hclk hdist t v ht hf hr htop hkey [.index 0] [] (by simp [STab.keys])
  have h3' := fun root next => h3 root [0] ⟨[], next + 1⟩ (by simp) (by simp [DState.locs])
  by_cases hab : a = b
  · subst hab
    have hp : pathStr [Seg.index 0] = lit "/0" := by decide +kernel
    refine ⟨.arr [j, dirDoc [(lit "$ref", lit "/0")]], ?_, fun exc target next => ?_⟩
    · simp [serializeToDocument, ser, serItems, STab.get, STab.put, h1, SRes.map, List.lookup, hp, dirDoc]
    · have hpt : pointerTokens env (lit "/0") = some [lit "0"] := rfl
      have hg : pointerGet (.arr [j, dirDoc [(lit "$ref", lit "/0")]]) [lit "0"] = some [0] := rfl
      refine ⟨⟨[([0], (next, t, v))], next + 1⟩, ?_⟩
      rw [deser_tuple]
      simp only [List.length_cons, List.length_nil, if_true, List.map_cons, List.map_nil, runTuple]
      rw [deser_sptr]
      simp only [h2, h3', DState.put, List.lookup]
      rw [deser_sptr]
      simp only [dir_ref, List.lookup, beq_self_eq_true, Option.map_some, readRef, hpt, hg, DState.get, List.reverse_cons, List.reverse_nil, List.nil_append]
      by_cases h : t = u
      · simp [h, DRes.map]
      · simp [h, DRes.map]
  · obtain ⟨w1, w2, w3, w4, w5⟩ := hw hab
    obtain ⟨k, k1, k2, k3⟩ := alone_back env hfair hclk hdist u w w1 w2 w3 w4 w5 [.index 1] [(a, [.index 0])] (by simp [STab.keys])
    have k3' := fun root next => k3 root [1] ⟨[([0], (next, t, v))], next + 2⟩ (by simp) (by simp only [DState.locs, List.map_cons, List.map_nil, List.mem_singleton, forall_eq]; decide)
    have hne : (b == a) = false := by simpa using fun h => hab h.symm
    refine ⟨.arr [j, k], ?_, fun exc target next => ⟨⟨[([1], (next + 1, u, w)), ([0], (next, t, v))], next + 2⟩, ?_⟩⟩
    · simp [serializeToDocument, ser, serItems, STab.get, STab.put, h1, k1, SRes.map, List.lookup, hne]
    · rw [deser_tuple]
      simp only [List.length_cons, List.length_nil, if_true, List.map_cons, List.map_nil, runTuple]
      rw [deser_sptr]
      simp only [h2, h3', DState.put, List.lookup]
      rw [deser_sptr]
      simp only [k2, k3', List.lookup, DState.put]
      simp [hab, DRes.map]


/-- **C104 is violated.** Any two pointers to objects of different types at the same address: for the second a reference to the first is written,
whatever the object is, so that its contents are lost, and reading the document uses the first object as one of the other type. -/
theorem C104_confused (env : Env) (hfair : env.Fair) (hclk : 0 < env.clk) (hdist : env.DistinctNames) (a : Nat) (t u : Ty) (hne : t ≠ u) (v : Val)
    (ht : HasTy env (fun _ => none) v t) (hf : finite v = true) (hr : Readable env v t) (htop : t.topShared = false) (hkey : lit "$ref" ∉ topKeys env v t) :
    ∃ doc, (∀ w, serializeToDocument env (pairOfShared t u) (.tup [.sptr a v, .sptr a w]) = some (some doc)) ∧
      ∀ next, deserializeThrow env (pairOfShared t u) doc next = .ub ∧ ∀ target, deserializeBool env (pairOfShared t u) doc target next = none := by
  have h := fun w => two_back env hfair hclk hdist a a t u v w ht hf hr htop hkey (fun h => absurd rfl h)
  obtain ⟨doc, h1, h2⟩ := h v
  refine ⟨doc, fun w => ?_, fun next => ?_⟩
  · rw [← h1]
    obtain ⟨j, g1, -⟩ := alone_back env hfair hclk hdist t v ht hf hr htop hkey [.index 0] [] (by simp [STab.keys])
    simp [serializeToDocument, ser, serItems, STab.get, STab.put, g1, SRes.map, List.lookup]
  · have h3 : ∀ exc target, deser env doc doc exc (pairOfShared t u) target [] [] ⟨[], next⟩ = .ub := fun exc target => by
      obtain ⟨st, h4⟩ := h2 exc target next
      simpa [hne] using h4
    exact ⟨by rw [deserializeThrow, h3], fun target => by rw [deserializeBool, h3]⟩

/-- A pointer to an `Item` and one to its first member. -/
example (target : Val) : ∃ doc, serializeToDocument Demo.env (pairOfShared (.cls 1) tInt) (.tup [.sptr 1 item7, .sptr 1 (.prim (.int 7))]) = some (some doc) ∧
    deserializeBool Demo.env (pairOfShared (.cls 1) tInt) doc target 0 = none := by
  obtain ⟨doc, h1, h2⟩ := C104_confused Demo.env fair (by decide) demo_distinct 1 (.cls 1) tInt (by simp) item7 (item_ty _).1 (by decide +kernel)
    item7_readable rfl (item_noref _ (.inl rfl))
  exact ⟨doc, h1 _, (h2 0).2 target⟩

/-- **C104 (partial).** Two pointers to objects without shared parts, at different addresses or of the same type: both objects are read back, as one
object exactly if they are. -/
theorem C104_exact_partial (env : Env) (hfair : env.Fair) (hclk : 0 < env.clk) (hdist : env.DistinctNames) (a b : Nat) (t u : Ty) (v w : Val)
    (ht : HasTy env (fun _ => none) v t) (hf : finite v = true) (hr : Readable env v t) (htop : t.topShared = false) (hkey : lit "$ref" ∉ topKeys env v t)
    (hu : HasTy env (fun _ => none) w u) (hf' : finite w = true) (hr' : Readable env w u) (htop' : u.topShared = false) (hkey' : lit "$ref" ∉ topKeys env w u)
    (hab : a = b → t = u ∧ v = w) :
    ∃ doc, serializeToDocument env (pairOfShared t u) (.tup [.sptr a v, .sptr b w]) = some (some doc) ∧
      ∀ next, ∃ c, (next = c ↔ a = b) ∧ deserializeThrow env (pairOfShared t u) doc next = .returned (.tup [.sptr next v, .sptr c w]) ∧
        ∀ target, deserializeBool env (pairOfShared t u) doc target next = some (true, .tup [.sptr next v, .sptr c w]) := by
  obtain ⟨doc, h1, h2⟩ := two_back env hfair hclk hdist a b t u v w ht hf hr htop hkey (fun _ => ⟨hu, hf', hr', htop', hkey'⟩)
  refine ⟨doc, h1, fun next => ?_⟩
  by_cases h : a = b
  · obtain ⟨rfl, rfl⟩ := hab h
    have h3 : ∀ exc target, ∃ st, deser env doc doc exc (pairOfShared t t) target [] [] ⟨[], next⟩ = .done true (.tup [.sptr next v, .sptr next v]) st :=
      fun exc target => by simpa [h] using h2 exc target next
    refine ⟨next, by simp [h], ?_, fun target => ?_⟩
    · obtain ⟨st, h4⟩ := h3 true (env.fresh (pairOfShared t t))
      rw [deserializeThrow, h4]
    · obtain ⟨st, h4⟩ := h3 false target
      rw [deserializeBool, h4]
  · have h3 : ∀ exc target, ∃ st, deser env doc doc exc (pairOfShared t u) target [] [] ⟨[], next⟩ = .done true (.tup [.sptr next v, .sptr (next + 1) w]) st :=
      fun exc target => by simpa [h] using h2 exc target next
    refine ⟨next + 1, by simp [h], ?_, fun target => ?_⟩
    · obtain ⟨st, h4⟩ := h3 true (env.fresh (pairOfShared t u))
      rw [deserializeThrow, h4]
    · obtain ⟨st, h4⟩ := h3 false target
      rw [deserializeBool, h4]

example : ∃ doc, serializeToDocument Demo.env (pairOfShared (.cls 1) tInt) (.tup [.sptr 1 item7, .sptr 2 (.prim (.int 7))]) = some (some doc) ∧
    ∀ next, ∃ c, (next = c ↔ 1 = 2) ∧ deserializeThrow Demo.env (pairOfShared (.cls 1) tInt) doc next = .returned (.tup [.sptr next item7, .sptr c (.prim (.int 7))]) ∧
      ∀ target, deserializeBool Demo.env (pairOfShared (.cls 1) tInt) doc target next = some (true, .tup [.sptr next item7, .sptr c (.prim (.int 7))]) :=
  C104_exact_partial Demo.env fair (by decide) demo_distinct 1 2 (.cls 1) tInt item7 (.prim (.int 7)) (item_ty _).1 (by decide +kernel)
    item7_readable rfl (item_noref _ (.inl rfl)) (by simp only [HasTy, PrimTy]; decide) rfl (by simp only [Readable, LeafGood]) rfl (by simp [topKeys]) (by simp)

end Verif.Props
