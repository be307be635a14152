import Verif.UnshareOwn
import Verif.Props.ReadShared
import Verif.Props.Agree
import Verif.Props.Rename

/-!
# C84: shared pointers are read like unique pointers, each with an object of its own
-/

namespace Verif.Props
open Verif.Core Verif.Numeric Verif.Demo

/-! ## The same program with unique pointers -/

/-- An outcome with unique pointers. -/
def Thrown.lower : Thrown → Thrown
  | .returned v => .returned v.lower
  | r => r

/-- An outcome with unique pointers. -/
def ParseBool.lower : ParseBool → ParseBool
  | .accepted v => .accepted v.lower
  | r => r

theorem lower_numeric : ∀ t : Ty, t.lower.numeric = t.numeric
  | .prim _ => rfl
  | .vec _ => rfl
  | .arr _ _ => rfl
  | .set _ => rfl
  | .map _ _ => rfl
  | .dict _ => rfl
  | .tuple _ => rfl
  | .variant _ => rfl
  | .cls _ => rfl
  | .uptr t => lower_numeric t
  | .sptr t => lower_numeric t

theorem lower_element (t : Ty) : t.lower.element = t.element := by
  unfold Ty.element
  rw [lower_numeric]
  cases t <;> rfl

mutual
theorem lower_streamable (G : Nat → Prop) : ∀ t : Ty, Streamable G t → Streamable G t.lower
  | .prim _, h => h
  | .vec t, h => ⟨(lower_element t).trans h.1, lower_streamable G t h.2⟩
  | .arr _ t, h => lower_streamable G t h
  | .set t, h => ⟨(lower_element t).trans h.1, lower_streamable G t h.2⟩
  | .map _ t, h => lower_streamable G t h
  | .dict t, h => lower_streamable G t h
  | .tuple ts, h => lower_streamableAll G ts h
  | .variant _, h => h.elim
  | .cls _, h => h
  | .uptr t, h => lower_streamable G t h
  | .sptr t, h => lower_streamable G t h

theorem lower_streamableAll (G : Nat → Prop) : ∀ ts : List Ty, StreamableAll G ts → StreamableAll G (Ty.lowers ts)
  | [], _ => trivial
  | t :: ts, h => ⟨lower_streamable G t h.1, lower_streamableAll G ts h.2⟩
end

theorem lower_classes {env : Env} {G : Nat → Prop} (h : StreamableClasses env G) : StreamableClasses env.lower G := by
  intro c hc
  obtain ⟨h1, h2⟩ := h c hc
  rw [Env.lower_members]
  refine ⟨by simpa using h1, fun m hm => ?_⟩
  obtain ⟨m', hm', rfl⟩ := List.mem_map.1 hm
  exact lower_streamable G _ (h2 m' hm')

theorem lower_names (env : Env) (c : Nat) : (env.lower.members c).map (·.name) = (env.members c).map (·.name) := by
  rw [Env.lower_members, List.map_map]
  rfl

theorem lower_tables {env : Env} {host : Host} (h : TablesBuilt env host) : TablesBuilt env.lower host := by
  intro c
  obtain ⟨h1, fuel, h2, h3⟩ := h c
  have hl : (env.lower.members c).length = (env.members c).length := by rw [Env.lower_members, List.length_map]
  rw [hl, lower_names]
  exact ⟨h1, fuel, h2, h3⟩

/-- **C84, partial.** The parser reads every document into a type with shared pointers as into the type with unique pointers
(types and documents of C42): the same verdict, and the same value but for the kind of pointer.

Missing: sets of pointers, variants, host limits (C42). -/
theorem C84_parse_partial (env : Env) (hb : env.Bare) (host : Host) (G : Nat → Prop) (hG : StreamableClasses env G) (ht : TablesBuilt env host)
    (d : Nat) (hroom : Roomy host d) (t : Ty) (hs : Streamable G t) (j : Json) (hd : j.depth ≤ d) (hp : j.proper = true) (target : Val) (n n' : Nat) :
    parseBool env.lower host t.lower (.document j) target.lower n' = ParseBool.lower (parseBool env host t (.document j) target n) := by
  rw [C42_document_partial env host G hG ht d hroom t hs j hd hp,
    C42_document_partial env.lower host G (lower_classes hG) (lower_tables ht) d hroom t.lower (lower_streamable G t hs) j hd hp]
  have h := meaning_lowered env hb j t target n n'
  simp only at h
  generalize meaning env j t target n = r at h ⊢
  generalize meaning env.lower j t.lower target.lower n' = r' at h ⊢
  cases h <;> rfl

/-- **C84, partial.** The throwing DOM reader on documents without references: the same exception, or the same value but for the kind of pointer.

Missing: references, sets of pointers, objects inside variants with a bad member in front of a good one, time stamps at which the clock overflows. -/
theorem C84_throw_partial (env : Env) (hb : env.Bare) (t : Ty) (root : Json) (hn : root.noRef) (hc : Calm env root)
    (hun : VariantsUnmasked env.lower t.lower root) (next next' : Nat) :
    deserializeThrow env.lower t.lower root next' = Thrown.lower (deserializeThrow env t root next) := by
  have h1 := lowModes env hb root root root t hn hc hun (env.fresh t) [] [] [] ⟨[], next⟩ ⟨[], next'⟩
  have h2 := sameVerdict env root t hn true (env.fresh t) (env.fresh t).lower [] root root [] [] ⟨[], next⟩ ⟨[], next'⟩
  have hfr : env.lower.fresh t.lower = (env.fresh t).lower := (hb.fresh t).trans (lower_plain _ (hb.fresh_none t)).symm
  unfold deserializeThrow
  rw [hfr]
  generalize deser env root root true t (env.fresh t) [] [] ⟨[], next⟩ = r at h1 h2 ⊢
  generalize deser env.lower root root true t.lower (env.fresh t).lower [] [] ⟨[], next'⟩ = r' at h1 h2 ⊢
  cases r with
  | ub => cases r' <;> first | rfl | cases h2
  | threw s e =>
    cases r' with
    | threw s' e' => cases h2; rfl
    | _ => cases h2
  | done ok v st =>
    obtain ⟨-, st', h3⟩ := h1 ok v st rfl
    rw [h3]
    rfl

/-- **C84, partial.** The boolean DOM reader on documents without references: the same verdict; if the document is accepted, the same value
but for the kind of pointer.

Missing: as before, and objects with a bad member in front of a good one (`C84_masked`). What a rejected document leaves in the target differs
(`C84_rejected`). -/
theorem C84_bool_partial (env : Env) (hb : env.Bare) (t : Ty) (root : Json) (hn : root.noRef) (hc : Calm env root)
    (hun : Unmasked env.lower t.lower root) (target : Val) (next next' : Nat) :
    (∀ v, deserializeBool env t root target next = some (true, v) →
      deserializeBool env.lower t.lower root target.lower next' = some (true, v.lower)) ∧
    ((∃ v, deserializeBool env t root target next = some (false, v)) ↔ ∃ w, deserializeBool env.lower t.lower root target.lower next' = some (false, w)) := by
  refine ⟨fun v hv => ?_, ?_⟩
  · unfold deserializeBool at hv
    cases hr : deser env root root false t target [] [] ⟨[], next⟩ with
    | ub => rw [hr] at hv; cases hv
    | threw s e => rw [hr] at hv; cases hv
    | done ok w st =>
      rw [hr] at hv
      cases hv
      have h1 := bool_to_throw env root root t hn hc hun target [] [] _ v st hr
      obtain ⟨-, st', h2⟩ := lowModes env hb root root root t hn hc hun.variants target [] [] [] ⟨[], next⟩ ⟨[], next'⟩ true v st h1
      obtain ⟨-, h3⟩ := sameModes env.lower root root t.lower hn target.lower [] [] ⟨[], next'⟩ true _ st' h2
      rw [deserializeBool, h3]
  · have h2 := sameVerdict env root t hn false target target.lower [] root root [] [] ⟨[], next⟩ ⟨[], next'⟩
    simp only [deserializeBool]
    generalize deser env root root false t target [] [] ⟨[], next⟩ = r at h2 ⊢
    generalize deser env.lower root root false t.lower target.lower [] [] ⟨[], next'⟩ = r' at h2 ⊢
    cases r <;> cases r' <;> simp_all [DRes.verdict]

/-! ## What is read, for C32 and C33 -/

/-- **C32 for all types, the value.** On a document without references in which no object has a bad member in front of a good one, the boolean
variant accepts with the value described for unique pointers.

Missing: as in `C32_shared_partial`, and sets of pointers. -/
theorem C32_shared_value_partial (env : Env) (hb : env.Bare) (t : Ty) (root : Json) (hn : root.noRef) (hc : Calm env root)
    (hun : Unmasked env.lower t.lower root) (target : Val) (next : Nat) (w : Val) :
    (∃ v, deserializeBool env t root target next = some (true, v) ∧ v.lower = w) ↔ Decodes env.lower t.lower root target.lower w := by
  obtain ⟨h1, -⟩ := C32_exact_partial env.lower (lower_env_unshared env) t.lower (lower_unshared t) root ((calm_lower env root).2 hc) hun target.lower next
  constructor
  · rintro ⟨v, hv, rfl⟩
    exact (h1 _).1 ((C84_bool_partial env hb t root hn hc hun target next next).1 v hv)
  · intro hd
    obtain ⟨v, hv⟩ := (C32_shared_partial env t root hn hc hun target next).1.2 fun hf => exclusive _ _ _ hf _ _ hd
    have h2 := (C84_bool_partial env hb t root hn hc hun target next next).1 v hv
    rw [(h1 w).2 hd] at h2
    cases h2
    exact ⟨v, hv, rfl⟩

/-- **C33 for all types, the value.** On a document without references in which, inside variants, no object has a bad member in front of a good
one, the throwing variant returns the value described for unique pointers.

Missing: as in `C33_shared_partial`, and sets of pointers. -/
theorem C33_shared_value_partial (env : Env) (hb : env.Bare) (t : Ty) (root : Json) (hn : root.noRef) (hc : Calm env root)
    (hun : VariantsUnmasked env.lower t.lower root) (next : Nat) (w : Val) :
    (∃ v, deserializeThrow env t root next = .returned v ∧ v.lower = w) ↔ Decodes env.lower t.lower root (env.fresh t) w := by
  obtain ⟨-, h2⟩ := C33_exact_partial env.lower (lower_env_unshared env) t.lower (lower_unshared t) root ((calm_lower env root).2 hc) hun next
  rw [show env.fresh t = env.lower.fresh t.lower from (hb.fresh t).symm, ← h2 w, C84_throw_partial env hb t root hn hc hun next next]
  cases deserializeThrow env t root next <;> simp [Thrown.lower]

/-! ## An object for every pointer -/

/-- Reading added to the value only objects with new addresses, each of them once. -/
theorem own_of_count {v target : Val} {n n' : Nat} (h : ∀ a, uses a v ≤ uses a target + win n n' a) (hd : (addrs target).Nodup)
    (hlt : ∀ a ∈ addrs target, a < n) : (addrs v).Nodup ∧ ∀ a ∈ addrs v, a ∈ addrs target ∨ n ≤ a := by
  have h1 : ∀ a, uses a target ≤ 1 := List.nodup_iff_count.1 hd
  have h2 : ∀ a, n ≤ a → uses a target = 0 := fun a ha => List.count_eq_zero.2 fun hm => absurd (hlt a hm) (by omega)
  refine ⟨nodup_of_uses fun a => ?_, fun a ha => ?_⟩
  · have := h a
    have := h1 a
    have := h2 a
    unfold win at *
    split at * <;> omega
  · have h3 := mem_of_uses ha
    have h4 := h a
    by_cases hn : n ≤ a
    · exact .inr hn
    · refine .inl (List.count_pos_iff.1 (?_ : 0 < uses a target))
      unfold win at h4
      split at h4 <;> omega

/-- **C84.** After reading a document without references no two shared pointers refer to the same object, if this was so in the target; the
objects are those that were in the target and new ones. This also holds for documents that are rejected. -/
theorem C84_own (env : Env) (hb : env.NoObjects) (t : Ty) (root : Json) (hn : root.noRef) (target : Val) (next : Nat)
    (hd : (addrs target).Nodup) (hlt : ∀ a ∈ addrs target, a < next) (ok : Bool) (v : Val)
    (h : deserializeBool env t root target next = some (ok, v)) : (addrs v).Nodup ∧ ∀ a ∈ addrs v, a ∈ addrs target ∨ next ≤ a := by
  unfold deserializeBool at h
  cases hr : deser env root root false t target [] [] ⟨[], next⟩ with
  | ub => rw [hr] at h; cases h
  | threw s e => rw [hr] at h; cases h
  | done ok' w st =>
    rw [hr] at h
    cases h
    exact own_of_count (owns env hb root root t hn false target [] [] ⟨[], next⟩ ok v st hr).2 hd hlt

/-- **C84.** The same for the throwing variant. -/
theorem C84_own_throw (env : Env) (hb : env.NoObjects) (t : Ty) (root : Json) (hn : root.noRef) (next : Nat) (v : Val)
    (h : deserializeThrow env t root next = .returned v) : (addrs v).Nodup ∧ ∀ a ∈ addrs v, next ≤ a := by
  unfold deserializeThrow at h
  cases hr : deser env root root true t (env.fresh t) [] [] ⟨[], next⟩ with
  | ub => rw [hr] at h; cases h
  | threw s e => rw [hr] at h; cases h
  | done ok w st =>
    rw [hr] at h
    cases h
    obtain ⟨h1, h2⟩ := own_of_count (owns env hb root root t hn true (env.fresh t) [] [] ⟨[], next⟩ ok v st hr).2 (by rw [hb.fresh]; exact List.nodup_nil)
      (by rw [hb.fresh]; simp)
    rw [hb.fresh] at h2
    exact ⟨h1, fun a ha => (h2 a ha).resolve_left (by simp)⟩

/-- **C84, partial.** The same for the parser and all documents, with `"$ref"` and with repeated keys (types and documents of C42).

Missing: variants, host limits (C42). -/
theorem C84_own_parse_partial (env : Env) (hb : env.NoObjects) (hc : env.NeatCtor) (host : Host) (G : Nat → Prop) (hG : StreamableClasses env G)
    (ht : TablesBuilt env host) (d : Nat) (hroom : Roomy host d) (t : Ty) (hs : Streamable G t) (j : Json) (hdep : j.depth ≤ d) (hp : j.proper = true)
    (target : Val) (hne : Neat env t target) (n : Nat) (hd : (addrs target).Nodup) (hlt : ∀ a ∈ addrs target, a < n) (v : Val)
    (h : parseBool env host t (.document j) target n = .accepted v) : (addrs v).Nodup ∧ ∀ a ∈ addrs v, a ∈ addrs target ∨ n ≤ a := by
  rw [C42_document_partial env host G hG ht d hroom t hs j hdep hp] at h
  have h1 := meaning_owned env hb hc j t target n hne
  cases hm : meaning env j t target n with
  | ub => rw [hm] at h; cases h
  | no => rw [hm] at h; cases h
  | yes w n' =>
    rw [hm] at h h1
    cases h
    exact own_of_count h1.2.2 hd hlt

/-! ## C61 with shared pointers -/

/-- **C61 for all types of C42.** The parser and the boolean DOM reader accept the same documents without references, with the same values but for
the kind of pointer, and each with a separate object for each pointer (`C84_own`, `C84_own_parse_partial`).

Missing: as in `C61_same_result_partial`; sets of pointers; references, which the parser rejects. -/
theorem C61_shared_partial (env : Env) (hb : env.Bare) (hdist : env.DistinctNames) (hc : env.lower.BlankCtor) (host : Host) (G : Nat → Prop)
    (hG : StreamableClasses env G) (htab : TablesBuilt env host) (d : Nat) (hroom : Roomy host d) (t : Ty) (hs : Streamable G t)
    (j : Json) (hn : j.noRef) (hdep : j.depth ≤ d) (hp : j.proper = true) (hcalm : Calm env j) (hun : Unmasked env.lower t.lower j)
    (hcom : Common env.lower t.lower j) (target target' : Val) (hbl : Blank env.lower t.lower target.lower) (n n' : Nat) (u : Val) :
    (∃ v, parseBool env host t (.document j) target n = .accepted v ∧ v.lower = u) ↔
      ∃ w, deserializeBool env t j target' n' = some (true, w) ∧ w.lower = u := by
  have h1 := C61_same_result_partial env.lower (lower_env_unshared env) (fun c => by rw [lower_names]; exact hdist c) hc host G (lower_classes hG)
    (lower_tables htab) d hroom t.lower (lower_streamable G t hs) (lower_unshared t) j hdep hp ((calm_lower env j).2 hcalm) hun hcom target.lower
    target'.lower hbl n n' u
  rw [C84_parse_partial env hb host G hG htab d hroom t hs j hdep hp target n n] at h1
  rw [C32_shared_value_partial env hb t j hn hcalm hun target' n' u,
    ← (C32_exact_partial env.lower (lower_env_unshared env) t.lower (lower_unshared t) j ((calm_lower env j).2 hcalm) hun target'.lower n').1 u, ← h1]
  cases parseBool env host t (.document j) target n <;> simp [ParseBool.lower]

/-! ## Examples -/

/-- The program `Demo.env`, without sets of pointers. -/
def bareEnv : Env := { Demo.env with less := fun v w => match v, w with
  | .prim (.int a), .prim (.int b) => decide (a < b)
  | .prim (.str a), .prim (.str b) => strLess a b
  | _, _ => false }

theorem bare : bareEnv.Bare where
  fresh := fun _ => rfl
  fresh_none := fun _ => rfl
  ctor := fun _ => rfl
  ctor_none := fun _ => rfl
  less := by
    intro v w
    cases v with
    | prim p => cases p <;> cases w <;> rfl
    | _ => cases w <;> rfl

theorem demo_noObjects : Demo.env.NoObjects := ⟨fun _ => rfl, fun _ => rfl⟩

theorem demo_neat : Demo.env.NeatCtor := by
  intro t
  show Neat Demo.env t (.prim .null)
  cases t with
  | prim p => exact .prim _ _
  | vec t => exact .vec _ _
  | arr k t => exact .arr _ _ _ fun i w _ h => by simp [Val.components] at h
  | set t => exact .set _ _
  | map o t => exact .map _ _ _ List.Pairwise.nil fun k w h => by simp [Val.entries] at h
  | dict t => exact .dict _ _
  | tuple ts => exact .tuple _ _ fun i t w _ h => by simp [Val.components] at h
  | variant ts => exact .variant _ _
  | cls c => exact .cls _ _ fun i m w _ _ h => by simp [Val.members] at h
  | uptr t => exact .uptr _ _
  | sptr t => exact .sptr _ _

/-- `[{"id": 1}, {"id": 2}]` as a vector of shared pointers and as a vector of unique pointers. -/
example (n n' : Nat) : parseBool bareEnv.lower host (.vec (.uptr (.cls 1))) (.document (.arr [.obj [(lit "id", .num (.int 1))], .obj [(lit "id", .num (.int 2))]]))
      (.seq []) n' =
    ParseBool.lower (parseBool bareEnv host (.vec (.sptr (.cls 1))) (.document (.arr [.obj [(lit "id", .num (.int 1))], .obj [(lit "id", .num (.int 2))]])) (.seq []) n) :=
  C84_parse_partial bareEnv bare host streamed streamable_classes tables_built 100 host_roomy (.vec (.sptr (.cls 1))) ⟨rfl, .inr (.inl rfl)⟩ _
    (by decide +kernel) (by decide +kernel) (.seq []) n n'

theorem bare_unmasked (j : Json) : Unmasked bareEnv.lower (.cls 2)
    (.obj [(lit "left", .obj [(lit "id", .num (.int 1))]), (lit "right", .obj [(lit "id", j)])]) := both_unmasked_less bareEnv.less j

example : deserializeThrow bareEnv.lower (.cls 2) goodBoth 0 =
    .returned (.obj [.uptr (.obj [.prim (.int 1), .absent, .prim .null]), .uptr (.obj [.prim (.int 2), .absent, .prim .null])]) :=
  C84_throw_partial bareEnv bare (.cls 2) goodBoth goodBoth_noRef goodBoth_calm (bare_unmasked _).variants 40 0

example : ∃ w, deserializeBool bareEnv.lower (.cls 2) badBoth (.obj [.nullptr, .nullptr]) 0 = some (false, w) :=
  (C84_bool_partial bareEnv bare (.cls 2) badBoth badBoth_noRef badBoth_calm (bare_unmasked _) (.obj [.nullptr, .nullptr]) 40 0).2.1 ⟨_, rfl⟩

example (next : Nat) (w : Val) : (∃ v, deserializeThrow bareEnv (.cls 2) goodBoth next = .returned v ∧ v.lower = w) ↔
    Decodes bareEnv.lower (.cls 2) goodBoth (.prim .null) w :=
  C33_shared_value_partial bareEnv bare (.cls 2) goodBoth goodBoth_noRef goodBoth_calm (bare_unmasked _).variants next w

example (next : Nat) (w : Val) : (∃ v, deserializeBool bareEnv (.cls 2) goodBoth (.obj [.sptr 3 (.obj []), .nullptr]) next = some (true, v) ∧ v.lower = w) ↔
    Decodes bareEnv.lower (.cls 2) goodBoth (.obj [.uptr (.obj []), .nullptr]) w :=
  C32_shared_value_partial bareEnv bare (.cls 2) goodBoth goodBoth_noRef goodBoth_calm (bare_unmasked _) _ next w

/-- One of two pointers in the target stays: the document is rejected at `right`. -/
example (v : Val) (h : deserializeBool Demo.env (.cls 2) badBoth (.obj [.sptr 3 (.obj []), .sptr 4 (.obj [])]) 40 = some (false, v)) :
    (addrs v).Nodup ∧ ∀ a ∈ addrs v, a ∈ [3, 4] ∨ 40 ≤ a :=
  C84_own Demo.env demo_noObjects (.cls 2) badBoth badBoth_noRef _ 40 (by decide) (by decide) false v h

example : (addrs (.obj [.sptr 40 (.obj [.prim (.int 1), .absent, .prim .null]), .sptr 41 (.obj [.prim (.int 2), .absent, .prim .null])])).Nodup ∧
    ∀ a ∈ addrs (.obj [.sptr 40 (.obj [.prim (.int 1), .absent, .prim .null]), .sptr 41 (.obj [.prim (.int 2), .absent, .prim .null])]), 40 ≤ a :=
  C84_own_throw Demo.env demo_noObjects (.cls 2) goodBoth goodBoth_noRef 40 _ rfl

/-- `{"a": [{"id": 1}], "a": [{"id": 2}]}` into a map of vectors of pointers: the second vector is added to the first. -/
example (v : Val) (h : parseBool Demo.env host (.map true (.vec (.sptr (.cls 1))))
      (.document (.obj [(lit "a", .arr [.obj [(lit "id", .num (.int 1))]]), (lit "a", .arr [.obj [(lit "id", .num (.int 2))]])])) (.map []) 5 = .accepted v) :
    (addrs v).Nodup ∧ ∀ a ∈ addrs v, a ∈ [] ∨ 5 ≤ a :=
  C84_own_parse_partial Demo.env demo_noObjects demo_neat host streamed streamable_classes tables_built 100 host_roomy (.map true (.vec (.sptr (.cls 1))))
    ⟨rfl, .inr (.inl rfl)⟩ _ (by decide +kernel) (by decide +kernel) (.map []) (.map _ _ _ List.Pairwise.nil fun _ _ _ => .vec _ _) 5 List.nodup_nil (by simp [addrs, addrsVals]) v h

/-! ## Where the kinds of pointers differ -/

/-- `{"left": {"id": "one"}, "right": {"id": 2}}` -/
def coveredBoth : Json := .obj [(lit "left", .obj [(lit "id", .str (lit "one"))]), (lit "right", .obj [(lit "id", .num (.int 2))])]

/-- **C84, negation.** The failed member `left` is masked by `right`, and the document is accepted. A `std::shared_ptr` then refers to an object that
was read in part, a `std::unique_ptr` is as before. -/
theorem C84_masked : ∃ v, deserializeBool bareEnv (.cls 2) coveredBoth (.obj [.nullptr, .nullptr]) 0 = some (true, v) ∧
    ∀ next', deserializeBool bareEnv.lower (.cls 2) coveredBoth (.obj [.nullptr, .nullptr]) next' ≠ some (true, v.lower) := by
  refine ⟨.obj [.sptr 0 (.obj [.prim .null, .absent, .prim .null]), .sptr 1 (.obj [.prim (.int 2), .absent, .prim .null])], rfl, fun next' => ?_⟩
  have : deserializeBool bareEnv.lower (.cls 2) coveredBoth (.obj [.nullptr, .nullptr]) next' =
    some (true, .obj [.nullptr, .uptr (.obj [.prim (.int 2), .absent, .prim .null])]) := rfl
  rw [this]
  simp [Val.lower, lowerVals]

/-- **C84, negation.** The same after a document that is rejected. -/
theorem C84_rejected : ∃ v, deserializeBool bareEnv (.cls 2) badBoth (.obj [.nullptr, .nullptr]) 0 = some (false, v) ∧
    ∀ next', deserializeBool bareEnv.lower (.cls 2) badBoth (.obj [.nullptr, .nullptr]) next' ≠ some (false, v.lower) := by
  refine ⟨.obj [.sptr 0 (.obj [.prim (.int 1), .absent, .prim .null]), .sptr 1 (.obj [.prim .null, .absent, .prim .null])], rfl, fun next' => ?_⟩
  have : deserializeBool bareEnv.lower (.cls 2) badBoth (.obj [.nullptr, .nullptr]) next' =
    some (false, .obj [.uptr (.obj [.prim (.int 1), .absent, .prim .null]), .nullptr]) := rfl
  rw [this]
  simp [Val.lower, lowerVals]

/-- **C84, negation.** With a reference two pointers share an object. -/
theorem C84_referenced : ∃ root v, deserializeThrow Demo.env (.vec (.sptr tInt)) root 0 = .returned v ∧ ¬ (addrs v).Nodup :=
  ⟨.arr [.num (.int 1), .obj [(lit "$ref", .str (lit "/0"))]], .seq [.sptr 0 (.prim (.int 1)), .sptr 0 (.prim (.int 1))], rfl, by decide⟩

/-! ## C61, example -/

/-- `[{"count": 5, "id": 1}]` -/
def oneWhole : Json := .arr [wholeItem]

theorem wholeItem_ref : wholeItem.noRef := by
  simp only [wholeItem, Json.noRef, Json.noRefFields, and_true, List.map_cons, List.map_nil]
  decide +kernel

theorem bare_item : bareEnv.lower.members 1 = item.members := rfl

theorem bare_decodes (target : Val) : Decodes bareEnv.lower (.cls 1) wholeItem target (.obj [.prim (.int 1), .absent, .prim (.int 5)]) := by
  refine .cls 1 _ _ _ ?_
  refine .present _ ⟨lit "id", .required, tInt⟩ _ _ 1 (.num (.int 1)) _ _ rfl (by decide) (.prim _ _ _ _ (.int _ 1 (by decide))) ?_
  refine .none _ ⟨lit "note", .optional, tStr⟩ _ _ _ rfl rfl ?_
  exact .present _ ⟨lit "count", .default, tInt⟩ _ _ 0 (.num (.int 5)) _ _ rfl (by decide) (.prim _ _ _ _ (.int _ 5 (by decide))) (.nil _ _)

theorem oneWhole_unmasked : Unmasked bareEnv.lower (.vec (.uptr (.cls 1))) oneWhole := by
  refine Unmasked.of (fun _ _ h => by cases h) fun t' j' h => ?_
  cases h with
  | vec _ _ _ hj =>
    simp only [List.mem_singleton] at hj
    subst hj
    refine Unmasked.of (fun _ _ h => by cases h) fun t' j' h => ?_
    cases h with
    | uptr =>
      refine Unmasked.of (fun c fields h1 h2 => ?_) (fun t' j' h => ?_)
      · cases h1
        cases h2
        rintro ⟨m, hm, hb⟩
        exfalso
        refine exclusive bareEnv.lower wholeItem (.cls 1) ?_ _ _ (bare_decodes (.prim .null))
        rcases hb with ⟨i, j, h1, h2⟩ | ⟨h1, h2⟩
        · exact .member 1 _ m i j hm h1 h2
        · exact .missing 1 _ m hm h1 h2
      · cases h with
        | cls _ _ m i _ hm hf =>
          rw [bare_item] at hm
          simp only [item, List.mem_cons, List.not_mem_nil, or_false] at hm
          rcases hm with rfl | rfl | rfl <;> exact Unmasked.prim _ _ _

theorem oneWhole_common : Common bareEnv.lower (.vec (.uptr (.cls 1))) oneWhole := by
  refine Common.of (fun _ _ h => by cases h) (fun _ _ _ h => by cases h) (fun _ _ h => by cases h) fun t' j' h => ?_
  cases h with
  | vec _ _ _ hj =>
    simp only [List.mem_singleton] at hj
    subst hj
    refine Common.of (fun _ _ h => by cases h) (fun _ _ _ h => by cases h) (fun _ _ h => by cases h) fun t' j' h => ?_
    cases h with
    | uptr =>
      refine Common.of ?_ (fun _ _ _ h => by cases h) (fun _ _ h => by cases h) ?_
      · intro c fields h1 h2
        cases h1
        cases h2
        rw [bare_item]
        decide
      · intro t' j' h
        cases h with
        | cls _ _ m i _ hm hf =>
          rw [bare_item] at hm
          simp only [item, List.mem_cons, List.not_mem_nil, or_false] at hm
          rcases hm with rfl | rfl | rfl <;> exact Common.prim _ _ (by simp) _

theorem bare_flat : Flat bareEnv.lower := fun _ => rfl

theorem bare_blank_classes (c : Nat) : Blank bareEnv.lower (.cls c) (.prim .null) := by
  apply blank_class _ bare_flat
  suffices h : ∀ m ∈ bareEnv.members c, Blank bareEnv.lower m.lower.ty (.prim .null) by
    intro m hm _
    rw [Env.lower_members] at hm
    obtain ⟨m', hm', rfl⟩ := List.mem_map.1 hm
    exact h m' hm'
  intro m hm
  have htree : m ∈ tree.members → Blank bareEnv.lower m.lower.ty (.prim .null) := by
    intro hm
    simp only [tree, List.mem_cons, List.not_mem_nil, or_false] at hm
    rcases hm with rfl | rfl
    · exact .prim _ _
    · exact .vec _ _ rfl
  match c with
  | 0 =>
    simp only [Env.members, bareEnv, Demo.env, point, List.mem_cons, List.not_mem_nil, or_false] at hm
    rcases hm with rfl | rfl <;> exact .prim _ _
  | 1 =>
    simp only [Env.members, bareEnv, Demo.env, item, List.mem_cons, List.not_mem_nil, or_false] at hm
    rcases hm with rfl | rfl | rfl <;> exact .prim _ _
  | 2 =>
    simp only [Env.members, bareEnv, Demo.env, both, List.mem_cons, List.not_mem_nil, or_false] at hm
    rcases hm with rfl | rfl <;> exact .uptr _ _
  | 3 =>
    simp only [Env.members, bareEnv, Demo.env, bag, List.mem_cons, List.not_mem_nil, or_false] at hm
    rcases hm with rfl | rfl
    · exact .set _ _ rfl
    · exact .uptr _ _
  | 4 => exact htree hm
  | 5 =>
    simp only [Env.members, bareEnv, Demo.env, sample, List.mem_cons, List.not_mem_nil, or_false] at hm
    rcases hm with rfl | rfl | rfl | rfl | rfl | rfl | rfl | rfl | rfl | rfl | rfl
    · exact .prim _ _
    · exact .prim _ _
    · exact .prim _ _
    · exact .prim _ _
    · exact .prim _ _
    · exact .set _ _ rfl
    · exact .map _ _ _ rfl
    · exact .variant _ _
    · exact .uptr _ _
    · refine blank_tuple _ bare_flat _ fun t ht => ?_
      simp only [Ty.lower, Ty.lowers, List.mem_cons, List.not_mem_nil, or_false] at ht
      rcases ht with rfl | rfl <;> exact .prim _ _
    · exact blank_arr _ bare_flat _ _ (.prim _ _)
  | n + 6 => exact htree hm

theorem bare_blank_ctor : bareEnv.lower.BlankCtor := blank_all _ bare_flat bare_blank_classes

example (n n' : Nat) (u : Val) :
    (∃ v, parseBool bareEnv host (.vec (.sptr (.cls 1))) (.document oneWhole) (.seq []) n = .accepted v ∧ v.lower = u) ↔
      ∃ w, deserializeBool bareEnv (.vec (.sptr (.cls 1))) oneWhole (.seq []) n' = some (true, w) ∧ w.lower = u :=
  C61_shared_partial bareEnv bare demo_distinct bare_blank_ctor host streamed streamable_classes tables_built 100 host_roomy (.vec (.sptr (.cls 1)))
    ⟨rfl, .inr (.inl rfl)⟩ oneWhole ⟨wholeItem_ref, trivial⟩ (by decide +kernel) (by decide +kernel) (by simp [oneWhole, wholeItem, Calm, CalmAll, CalmFields])
    oneWhole_unmasked oneWhole_common (.seq []) (.seq []) (.vec _ _ rfl) n n' u

end Verif.Props
