import Verif.Refuses
import Verif.Props.ReadShared
import Verif.Props.ReadWrite

/-!
# C71: what documents with references mean

`Conveys` says which object graph a document denotes: shared objects are numbered in the order in which they begin in the
document, and a reference denotes the object that was read from the node to which it points. `Misfits` says that some node does not
have the form that its type asks for, `Dangles` that some reference refers to something else than an object of its type that comes
before it.
-/

namespace Verif.Props
open Verif.Core Verif.Numeric Verif.EnumConv Verif.Demo

/-- No shared objects. -/
abbrev noObjects : Loc → Ty → Prop := fun _ _ => False

/-! ## Examples: `std::vector<std::shared_ptr<Item>>` -/

/-- The classes of `Demo.env`; a new `Item` has `count` 7. -/
def sharedEnv : Env := { Demo.env with
  fresh := fun t => match t with | .cls 1 => .obj [.prim (.int 0), .absent, .prim (.int 7)] | _ => .prim .null
  ctor := fun t => match t with | .cls 1 => .obj [.prim (.int 0), .absent, .prim (.int 7)] | _ => .prim .null }

/-- `std::vector<std::shared_ptr<Item>>` -/
abbrev tItems : Ty := .vec (.sptr (.cls 1))

/-- `[{"id": 1}, {"$ref": "/0"}, {"id": j}]` -/
def threeItems (j : Json) : Json := .arr [.obj [(lit "id", .num (.int 1))], .obj [(lit "$ref", .str (lit "/0"))], .obj [(lit "id", j)]]

/-- `Item{n, std::nullopt, 7}` -/
def itemOf (n : Int) : Val := .obj [.prim (.int n), .absent, .prim (.int 7)]

theorem shared_distinct : sharedEnv.DistinctNames := by
  have h : ∀ c, c < 6 → ((sharedEnv.members c).map (·.name)).Nodup := by decide +kernel
  intro c
  by_cases hc : c < 6
  · exact h c hc
  · have : sharedEnv.members c = sharedEnv.members 4 := by
      match c with
      | 0 | 1 | 2 | 3 | 4 | 5 => omega
      | n + 6 => rfl
    rw [this]
    exact h 4 (by omega)

theorem shared_item : sharedEnv.members 1 = [⟨lit "id", .required, tInt⟩, ⟨lit "note", .optional, tStr⟩, ⟨lit "count", .default, tInt⟩] := rfl

theorem item_member {t : Ty} (h : Inner sharedEnv (.cls 1) t) : t = tInt ∨ t = tStr := by
  cases h with
  | cls _ m hm =>
    rw [shared_item] at hm
    simp only [List.mem_cons, List.not_mem_nil, or_false] at hm
    rcases hm with rfl | rfl | rfl
    · exact .inl rfl
    · exact .inr rfl
    · exact .inl rfl

theorem item_within {t : Ty} (h : Within sharedEnv (.cls 1) t) : t = .cls 1 ∨ t = tInt ∨ t = tStr := by
  induction h with
  | self => exact .inl rfl
  | inner t1 t2 _ hi ih =>
    rcases ih with rfl | rfl | rfl
    · exact .inr (item_member hi)
    · cases hi
    · cases hi

theorem item_sharefree : Sharefree sharedEnv (.cls 1) := fun u h => by rcases item_within h with h | h | h <;> cases h

theorem items_within {t : Ty} (h : Within sharedEnv tItems t) : t = tItems ∨ t = .sptr (.cls 1) ∨ t = .cls 1 ∨ t = tInt ∨ t = tStr := by
  induction h with
  | self => exact .inl rfl
  | inner t1 t2 _ hi ih =>
    rcases ih with rfl | rfl | rfl | rfl | rfl
    · cases hi
      exact .inr (.inl rfl)
    · cases hi
      exact .inr (.inr (.inl rfl))
    · exact .inr (.inr (item_within (.inner _ _ .self hi)))
    · cases hi
    · cases hi

theorem items_unnested : Unnested sharedEnv tItems := by
  intro u h
  rcases items_within h with h | h | h | h | h <;> cases h
  rfl

theorem reach_within {env : Env} {T t : Ty} {root j : Json} (h : Reach env T root t j) : Within env T t := by
  induction h with
  | self => exact .self
  | child _ _ _ _ _ _ _ hc ih => exact .inner _ _ ih hc.types

theorem node_within {env : Env} {T t : Ty} {root j : Json} {loc : Loc} (h : NodeAt env T root t j loc) : Within env T t := by
  induction h with
  | root => exact .self
  | child _ _ _ _ _ _ _ hc ih => exact .inner _ _ ih hc.types

theorem items_tame (root : Json) : Tame sharedEnv tItems root := by
  intro ts j h
  rcases items_within (reach_within h) with h | h | h | h | h <;> cases h

theorem items_orderlyAlts (root : Json) : OrderlyAlts sharedEnv tItems root := by
  intro ts j h
  rcases items_within (reach_within h) with h | h | h | h | h <;> cases h

/-- The nodes of the document that are read as an `Item`. -/
theorem items_nodes {root j : Json} {t : Ty} (h : Reach sharedEnv tItems root t j) :
    (t = tItems ∧ j = root) ∨ (t = .sptr (.cls 1) ∧ j ∈ root.items) ∨ (t = .cls 1 ∧ j ∈ root.items ∧ refMember j = none) ∨ t = tInt ∨ t = tStr := by
  induction h with
  | self => exact .inl ⟨rfl, rfl⟩
  | child t1 j1 loc1 t2 j2 loc2 _ hc ih =>
    rcases ih with ⟨rfl, rfl⟩ | ⟨rfl, hj⟩ | ⟨rfl, hj, hr⟩ | rfl | rfl
    · cases hc with
      | vec _ js i _ _ h => exact .inr (.inl ⟨rfl, List.mem_of_getElem? h⟩)
    · cases hc with
      | sptr _ _ _ hr => exact .inr (.inr (.inl ⟨rfl, hj, hr⟩))
    · exact .inr (.inr (.inr (item_member hc.types)))
    · cases hc
    · cases hc

theorem items_orderly (j : Json) : Orderly sharedEnv tItems (threeItems j) := by
  intro c fields h
  rcases items_nodes h with ⟨h, -⟩ | ⟨h, -⟩ | ⟨h, hj, hr⟩ | h | h <;> cases h
  have hex : ∃ j', fields = [(lit "id", j')] := by
    simp only [threeItems, Json.items, List.mem_cons, List.not_mem_nil, or_false, Json.obj.injEq] at hj
    rcases hj with rfl | rfl | rfl
    · exact ⟨_, rfl⟩
    · cases hr
    · exact ⟨_, rfl⟩
  obtain ⟨j', rfl⟩ := hex
  have hnote : findMember (lit "note") [(lit "id", j')] = none := rfl
  have hcount : findMember (lit "count") [(lit "id", j')] = none := rfl
  rintro ⟨m, hm, hb⟩
  rw [shared_item] at hm
  simp only [List.mem_cons, List.not_mem_nil, or_false] at hm
  refine ⟨[], ⟨lit "id", .required, tInt⟩, [⟨lit "note", .optional, tStr⟩, ⟨lit "count", .default, tInt⟩], rfl, ?_, ?_⟩
  · rcases hm with rfl | rfl | rfl
    · exact hb
    · rcases hb with ⟨i, j', h, -⟩ | ⟨-, h⟩
      · rw [hnote] at h; cases h
      · cases h
    · rcases hb with ⟨i, j', h, -⟩ | ⟨-, h⟩
      · rw [hcount] at h; cases h
      · cases h
  · intro m hm
    simp only [List.mem_cons, List.not_mem_nil, or_false] at hm
    rcases hm with rfl | rfl
    · exact ⟨hnote, by decide⟩
    · exact ⟨hcount, by decide⟩

theorem items_sound (j : Json) : ¬ Dangles sharedEnv (threeItems j) noObjects tItems (threeItems j) [] := by
  intro h
  have hobj : ∀ {D : Loc → Ty → Prop} {j' : Json} {loc : Loc}, refMember j' = none → ¬ Dangles sharedEnv (threeItems j) D (.sptr (.cls 1)) j' loc := by
    intro D j' loc hr
    exact traceless_sound (.inr ⟨_, rfl, item_sharefree, hr⟩)
  cases h with
  | component _ _ _ _ n t' j' loc' hn h =>
    have hn' := hn
    cases hn with
    | vec _ _ _ _ _ hi =>
      match n, hi with
      | 0, hi => cases hi; exact hobj rfl h
      | 1, hi =>
        cases hi
        cases h with
        | component _ _ _ _ _ _ _ _ hn => cases hn with | sptr _ _ _ hr => cases hr
        | reference _ _ _ _ r hr h =>
          cases hr
          refine h (lit "/0") [lit "0"] [0] rfl rfl rfl (.inr ⟨0, .sptr (.cls 1), .obj [(lit "id", .num (.int 1))], [0], by omega, ?_, ?_⟩)
          · exact .vec _ _ 0 _ _ rfl
          · exact .here _ _ _ rfl
      | 2, hi => cases hi; exact hobj rfl h
      | n + 3, hi => cases hi

theorem items_calm (j : Json) (h : Calm sharedEnv j) : Calm sharedEnv (threeItems j) := by
  simp only [threeItems, Calm, CalmAll, CalmFields, CalmStr, and_true, true_and, ne_eq]
  refine ⟨?_, h⟩
  decide +kernel

/-! ## C71 -/

/-- **C71 (partial): the readers build the object graph that a document denotes.** Both variants, whatever the target contains.

Missing: variants in which an alternative before the one that is taken contains shared pointers (except at its top), and what it leaves
behind (C46, C68); time stamps at which the clock overflows; masked members in alternatives that are passed over. -/
theorem C71_denoted_read_partial (env : Env) (t : Ty) (root : Json) (hc : Calm env root) (ha : AltsUnmasked env t root) (target : Val) (next : Nat) (v : Val)
    (st' : DState) (h : Conveys env root t [] root target ⟨[], next⟩ v st') :
    deserializeBool env t root target next = some (true, v) ∧ (target = env.fresh t → deserializeThrow env t root next = .returned v) := by
  have hr := conveys_read env root root t hc ha [] target ⟨[], next⟩ v st' h
  refine ⟨by simp only [deserializeBool, hr], fun ht => ?_⟩
  subst ht
  simp only [deserializeThrow, hr]

example (target : Val) : deserializeBool sharedEnv tItems (threeItems (.num (.int 2))) target 0 =
    some (true, .seq [.sptr 0 (itemOf 1), .sptr 0 (itemOf 1), .sptr 1 (itemOf 2)]) := by
  have hitem : ∀ n loc st, int32.InRange n → Conveys sharedEnv (threeItems (.num (.int 2))) (.cls 1) loc (.obj [(lit "id", .num (.int n))]) (itemOf 0) st (itemOf n) st :=
    fun n loc st hn => .cls 1 loc _ _ st _ st
      (.present _ _ ⟨lit "id", .required, tInt⟩ _ _ _ 0 (.num (.int n)) _ st _ _ rfl (by decide) (.prim _ _ _ _ _ _ (.int _ n hn))
        (.none _ _ ⟨lit "note", .optional, tStr⟩ _ _ _ _ _ rfl rfl
          (.keep _ _ ⟨lit "count", .default, tInt⟩ _ _ _ _ _ rfl rfl (.nil _ _ _ _))))
  refine (C71_denoted_read_partial sharedEnv tItems _ (items_calm (.num (.int 2)) trivial) (items_orderlyAlts _).unmasked target 0 _ _ (.vec _ _ _ _ _ _ _
    (.cons _ _ _ _ _ _ _ _ _ _ (.sptr _ _ _ _ _ _ _ rfl (hitem 1 _ _ (by decide)))
      (.cons _ _ _ _ _ _ _ _ _ _ (.ref _ _ _ _ _ (lit "/0") [lit "0"] [0] 0 (itemOf 1) rfl rfl rfl rfl)
        (.cons _ _ _ _ _ _ _ _ _ _ (.sptr _ _ _ _ _ _ _ rfl (hitem 2 _ _ (by decide))) (.nil _ _ _ _)))))).1

/-- **C71 (partial): which documents denote something.** Exactly those in which every node has the form that is asked for, and every
reference refers to an object of its type that comes before it.

Missing: alternatives of variants, except the last ones, with shared pointers below their top; shared pointers to shared pointers. -/
theorem C71_denotes_iff_partial (env : Env) (hd : env.DistinctNames) (t : Ty) (root : Json) (htame : Tame env t root) (hun : Unnested env t) (target : Val) (next : Nat) :
    (∃ v st', Conveys env root t [] root target ⟨[], next⟩ v st') ↔ ¬ Misfits env t root ∧ ¬ Dangles env root noObjects t root [] := by
  rw [conveys_iff env hd t root htame hun target next, Breaks, not_or]

example (j : Json) : (∃ v st', Conveys sharedEnv (threeItems j) tItems [] (threeItems j) .nullptr ⟨[], 0⟩ v st') ↔ ¬ Misfits sharedEnv tItems (threeItems j) :=
  (C71_denotes_iff_partial sharedEnv shared_distinct tItems (threeItems j) (items_tame _) items_unnested .nullptr 0).trans (and_iff_left (items_sound j))

/-- The first misfit of `threeItems`. -/
theorem items_misfit (s : Str) : Misfits sharedEnv tItems (threeItems (.str s)) :=
  .component _ _ [] 2 (.sptr (.cls 1)) (.obj [(lit "id", .str s)]) [2] (.vec _ _ 2 _ _ rfl)
    (.component _ _ [] 0 (.cls 1) _ [] (.sptr _ _ _ rfl)
      (.component _ _ [] 0 tInt (.str s) [0] (.cls 1 _ 0 ⟨lit "id", .required, tInt⟩ 0 _ _ rfl rfl) (.here _ _ (.prim _ _ fun pv h => by cases h))))

/-- **C71 (partial): the variant that throws is exact on documents with references.** If all references are in order, it returns exactly
what the document denotes, and throws iff some node does not have the form that is asked for.

Missing: dangling references, which are not reported (`C33_reference_not_thrown`, `C71_dangling_truncates`); members masked inside variants
(`C33_masked_in_variant`); the types of `C71_denotes_iff_partial`; overflow of the clock. -/
theorem C71_throw_exact_partial (env : Env) (hd : env.DistinctNames) (t : Ty) (root : Json) (hc : Calm env root) (htame : Tame env t root) (hun : Unnested env t)
    (ho : OrderlyAlts env t root) (hs : ¬ Dangles env root noObjects t root []) (next : Nat) :
    (∀ v, deserializeThrow env t root next = .returned v ↔ ∃ st', Conveys env root t [] root (env.fresh t) ⟨[], next⟩ v st') ∧
    ((∃ path e, deserializeThrow env t root next = .threw path e) ↔ Misfits env t root) := by
  have htab : Tab ⟨[], next⟩ noObjects := fun q u => ⟨fun ⟨a, v, h⟩ => (by cases h), False.elim⟩
  have bad : Misfits env t root → ∃ path e, deserializeThrow env t root next = .threw path e := by
    intro hm
    obtain ⟨s, e, h⟩ := raises env hd root root t hc htame hun ho [] noObjects _ htab (fun _ _ _ h => h.elim) (fun _ _ h => h.elim) hs hm (env.fresh t) []
    exact ⟨pathStr s, e, by simp only [deserializeThrow, h]⟩
  have good : ∀ v st', Conveys env root t [] root (env.fresh t) ⟨[], next⟩ v st' → deserializeThrow env t root next = .returned v :=
    fun v st' h => (C71_denoted_read_partial env t root hc ho.unmasked _ next v st' h).2 rfl
  have total : ¬ Misfits env t root → ∃ v st', Conveys env root t [] root (env.fresh t) ⟨[], next⟩ v st' :=
    fun hm => (C71_denotes_iff_partial env hd t root htame hun _ next).2 ⟨hm, hs⟩
  refine ⟨fun v => ⟨fun h => ?_, fun ⟨st', h⟩ => good v st' h⟩, ⟨fun ⟨path, e, h⟩ => ?_, bad⟩⟩
  · by_cases hm : Misfits env t root
    · obtain ⟨path, e, h'⟩ := bad hm
      rw [h] at h'
      cases h'
    · obtain ⟨w, st', hw⟩ := total hm
      have := good w st' hw
      rw [h] at this
      cases this
      exact ⟨st', hw⟩
  · by_contra hm
    obtain ⟨w, st', hw⟩ := total hm
    have := good w st' hw
    rw [h] at this
    cases this

example (s : Str) (hs : Calm sharedEnv (.str s)) (next : Nat) : ∃ path e, deserializeThrow sharedEnv tItems (threeItems (.str s)) next = .threw path e :=
  (C71_throw_exact_partial sharedEnv shared_distinct tItems _ (items_calm _ hs) (items_tame _) items_unnested (items_orderlyAlts _) (items_sound _) next).2.2 (items_misfit s)

example : ∃ st', Conveys sharedEnv (threeItems (.num (.int 2))) tItems [] (threeItems (.num (.int 2))) (sharedEnv.fresh tItems) ⟨[], 0⟩
    (.seq [.sptr 0 (itemOf 1), .sptr 0 (itemOf 1), .sptr 1 (itemOf 2)]) st' :=
  ((C71_throw_exact_partial sharedEnv shared_distinct tItems _ (items_calm (.num (.int 2)) trivial) (items_tame _) items_unnested (items_orderlyAlts _) (items_sound _) 0).1 _).1 rfl

/-- **C71 (partial): `bool deserialize` is exact on documents with references.** If all references are in order and no object has a bad
member in front of a good one, it returns `true` exactly with what the document denotes, and `false` iff some node does not have the form
that is asked for.

Missing: dangling references (`C71_accepts_iff_partial`); masked members (`C32_masked_accepted`); the types of `C71_denotes_iff_partial`;
overflow of the clock. -/
theorem C71_bool_exact_partial (env : Env) (hd : env.DistinctNames) (t : Ty) (root : Json) (hc : Calm env root) (htame : Tame env t root) (hun : Unnested env t)
    (ho : Orderly env t root) (hs : ¬ Dangles env root noObjects t root []) (target : Val) (next : Nat) :
    (∀ v, deserializeBool env t root target next = some (true, v) ↔ ∃ st', Conveys env root t [] root target ⟨[], next⟩ v st') ∧
    ((∃ v, deserializeBool env t root target next = some (false, v)) ↔ Misfits env t root) := by
  have hcov : Covered ⟨[], next⟩ noObjects := fun q a u v h => by cases h
  have bad : Misfits env t root → ∃ v, deserializeBool env t root target next = some (false, v) := by
    intro hm
    obtain ⟨ok, w, st', h, -, h3⟩ := settles env hd root root t hc htame hun ho [] noObjects _ hcov (fun _ _ _ h => h.elim) (fun _ _ h => h.elim) hs target []
    obtain rfl := h3 hm
    exact ⟨w, by simp only [deserializeBool, h]⟩
  have good : ∀ v st', Conveys env root t [] root target ⟨[], next⟩ v st' → deserializeBool env t root target next = some (true, v) :=
    fun v st' h => (C71_denoted_read_partial env t root hc ho.alts.unmasked _ next v st' h).1
  have total : ¬ Misfits env t root → ∃ v st', Conveys env root t [] root target ⟨[], next⟩ v st' :=
    fun hm => (C71_denotes_iff_partial env hd t root htame hun _ next).2 ⟨hm, hs⟩
  refine ⟨fun v => ⟨fun h => ?_, fun ⟨st', h⟩ => good v st' h⟩, ⟨fun ⟨w, h⟩ => ?_, bad⟩⟩
  · by_cases hm : Misfits env t root
    · obtain ⟨w, h'⟩ := bad hm
      rw [h] at h'
      cases h'
    · obtain ⟨w, st', hw⟩ := total hm
      have := good w st' hw
      rw [h] at this
      cases this
      exact ⟨st', hw⟩
  · by_contra hm
    obtain ⟨w', st', hw⟩ := total hm
    have := good w' st' hw
    rw [h] at this
    cases this

example (s : Str) (hs : Calm sharedEnv (.str s)) (target : Val) (next : Nat) : ∃ v, deserializeBool sharedEnv tItems (threeItems (.str s)) target next = some (false, v) :=
  (C71_bool_exact_partial sharedEnv shared_distinct tItems _ (items_calm _ hs) (items_tame _) items_unnested (items_orderly _) (items_sound _) target next).2.2 (items_misfit s)

/-- **C71 (partial): `bool deserialize` accepts exactly the documents that denote something**, whatever references they contain, if no failure
of a member is masked by a later member. What it returns then is what the document denotes.

Missing: masked members (`C71_dangling_masked`); the types of `C71_denotes_iff_partial`; overflow of the clock. -/
theorem C71_accepts_iff_partial (env : Env) (hd : env.DistinctNames) (t : Ty) (root : Json) (hc : Calm env root) (htame : Tame env t root) (hun : Unnested env t)
    (ho : OrderlyAlts env t root) (hm : ¬ Masks env root noObjects t root []) (target : Val) (next : Nat) (v : Val) :
    deserializeBool env t root target next = some (true, v) ↔ ∃ st', Conveys env root t [] root target ⟨[], next⟩ v st' := by
  refine ⟨fun h => ?_, fun ⟨st', h⟩ => (C71_denoted_read_partial env t root hc ho.unmasked _ next v st' h).1⟩
  have hcov : Covered ⟨[], next⟩ noObjects := fun q a u v h => by cases h
  cases hr : deser env root root false t target [] [] ⟨[], next⟩ with
  | ub => simp only [deserializeBool, hr] at h; cases h
  | threw s e => simp only [deserializeBool, hr] at h; cases h
  | done ok w st' =>
    simp only [deserializeBool, hr, Option.some.injEq, Prod.mk.injEq] at h
    obtain ⟨rfl, rfl⟩ := h
    have hs := (stuck env hd root root t false hc htame hun ho [] noObjects _ hcov (fun _ _ h => h.elim) hm _ _ _ _ _ hr).2
    obtain ⟨v, st2, hv⟩ := (conveys_iff env hd t root htame hun target next).2 fun hb => by cases hs hb
    have := (C71_denoted_read_partial env t root hc ho.unmasked _ next v st2 hv).1
    simp only [deserializeBool, hr, Option.some.injEq, Prod.mk.injEq, true_and] at this
    subst this
    exact ⟨st2, hv⟩

/-- **C71 (partial): no dangling reference is accepted.** A document in which some reference does not refer to an object of its type that comes
before it is never read with the result `true`.

Missing: as for `C71_accepts_iff_partial`. -/
theorem C71_dangling_refused_partial (env : Env) (hd : env.DistinctNames) (t : Ty) (root : Json) (hc : Calm env root) (htame : Tame env t root) (hun : Unnested env t)
    (ho : OrderlyAlts env t root) (hm : ¬ Masks env root noObjects t root []) (hs : Dangles env root noObjects t root []) (target : Val) (next : Nat) (v : Val) :
    deserializeBool env t root target next ≠ some (true, v) := by
  intro h
  obtain ⟨st', h⟩ := (C71_accepts_iff_partial env hd t root hc htame hun ho hm target next v).1 h
  exact ((C71_denotes_iff_partial env hd t root htame hun target next).1 ⟨v, st', h⟩).2 hs

/-- `[{"id": j}, {"$ref": p}]` -/
def strayItems (j : Json) (p : Str) : Json := .arr [.obj [(lit "id", j)], .obj [(lit "$ref", .str p)]]

theorem stray_unmasked (j : Json) (p : Str) : ¬ Masks sharedEnv (strayItems j p) noObjects tItems (strayItems j p) [] := by
  have hprim : ∀ {D : Loc → Ty → Prop} {q : Prim} {j' : Json} {loc : Loc}, ¬ Masks sharedEnv (strayItems j p) D (.prim q) j' loc := by
    intro D q j' loc h
    cases h with | component _ _ _ _ _ _ _ _ hn => cases hn
  have hcls : ∀ {D : Loc → Ty → Prop} {loc : Loc}, ¬ Masks sharedEnv (strayItems j p) D (.cls 1) (.obj [(lit "id", j)]) loc := by
    intro D loc h
    cases h with
    | here _ _ _ _ n m hm hb hl =>
      obtain ⟨k, m', hk, hm', hi⟩ := hl n m hm hb
      rw [shared_item] at hm'
      match k, hk, hm' with
      | 1, _, hm' => cases hm'; exact hi ⟨rfl, by decide⟩
      | 2, _, hm' => cases hm'; exact hi ⟨rfl, by decide⟩
      | k + 3, _, hm' => cases hm'
    | component _ _ _ _ n t' j' loc' hn h =>
      rcases item_member hn.inner with rfl | rfl <;> exact hprim h
  intro h
  cases h with
  | component _ _ _ _ n t' j' loc' hn h =>
    cases hn with
    | vec _ _ _ _ _ hi =>
      match n, hi with
      | 0, hi => cases hi; cases h with | component _ _ _ _ _ _ _ _ hn h => cases hn with | sptr _ _ _ hr => exact hcls h
      | 1, hi => cases hi; cases h with | component _ _ _ _ _ _ _ _ hn h => cases hn with | sptr _ _ _ hr => cases hr
      | n + 2, hi => cases hi

example (n : Int) (target : Val) (next : Nat) (v : Val) : deserializeBool sharedEnv tItems (strayItems (.num (.int n)) (lit "/7")) target next ≠ some (true, v) := by
  refine C71_dangling_refused_partial sharedEnv shared_distinct tItems _ ?_ (items_tame _) items_unnested (items_orderlyAlts _) (stray_unmasked _ _) ?_ target next v
  · simp only [strayItems, Calm, CalmAll, CalmFields, CalmStr, and_true, true_and, ne_eq]
    decide +kernel
  · refine .component _ _ _ _ 1 (.sptr (.cls 1)) (.obj [(lit "$ref", .str (lit "/7"))]) [1] (.vec _ _ 1 _ _ rfl) (.reference _ _ _ _ _ rfl fun p toks q h1 h2 h3 => ?_)
    cases h1
    cases h2
    cases h3

example (target : Val) : ∃ st', Conveys sharedEnv (strayItems (.num (.int 5)) (lit "/0")) tItems [] (strayItems (.num (.int 5)) (lit "/0")) target ⟨[], 0⟩
    (.seq [.sptr 0 (itemOf 5), .sptr 0 (itemOf 5)]) st' := by
  refine (C71_accepts_iff_partial sharedEnv shared_distinct tItems _ ?_ (items_tame _) items_unnested (items_orderlyAlts _) (stray_unmasked _ _) target 0 _).1 rfl
  simp only [strayItems, Calm, CalmAll, CalmFields, CalmStr, and_true, true_and, ne_eq]
  decide +kernel

/-- `{"left": {"$ref": "/nope"}, "right": {"id": 1}}` -/
def strayBoth : Json := .obj [(lit "left", .obj [(lit "$ref", .str (lit "/nope"))]), (lit "right", .obj [(lit "id", .num (.int 1))])]

/-- **C71 fails for masked members**: `{"left": {"$ref": "/nope"}, "right": {"id": 1}}` is accepted, although nothing in the document is called `nope`.
The member `left` keeps what it contained. -/
theorem C71_dangling_masked (v w : Val) (next : Nat) :
    Dangles sharedEnv strayBoth noObjects (.cls 2) strayBoth [] ∧
    deserializeBool sharedEnv (.cls 2) strayBoth (.obj [v, w]) next = some (true, .obj [v, .sptr next (itemOf 1)]) := by
  refine ⟨?_, rfl⟩
  refine .component _ _ _ _ 0 (.sptr (.cls 1)) (.obj [(lit "$ref", .str (lit "/nope"))]) [0] (.cls 2 _ 0 ⟨lit "left", .required, .sptr (.cls 1)⟩ 0 _ _ rfl rfl)
    (.reference _ _ _ _ _ rfl fun p toks q h1 h2 h3 => ?_)
  cases h1
  cases h2
  cases h3

/-- **C71 fails for dangling references in the throwing variant**: `[{"id": 1}, {"$ref": "/x"}, …]` is read without an exception as a vector with one
item, whatever comes after the reference. -/
theorem C71_dangling_truncates (js : List Json) (next : Nat) :
    deserializeThrow sharedEnv tItems (.arr (.obj [(lit "id", .num (.int 1))] :: .obj [(lit "$ref", .str (lit "/x"))] :: js)) next = .returned (.seq [.sptr next (itemOf 1)]) := rfl

example (s : Str) : deserializeThrow sharedEnv tItems (.arr [.obj [(lit "id", .num (.int 1))], .obj [(lit "$ref", .str (lit "/x"))], .str s]) 0 = .returned (.seq [.sptr 0 (itemOf 1)]) :=
  C71_dangling_truncates [.str s] 0

/-- **C71 (partial): what a document denotes is an object graph.** There is one object for every address, of the type of the pointers to
it, and the objects that were read from different nodes have different addresses. `FurnishedAt`, `Ready`: members of kind `default` have
values of their types before reading.

Missing: as for `C71_denoted_read_partial`. -/
theorem C71_graph_partial (env : Env) (hl : StrictLess env.less) (hclk : 0 < env.clk) (t : Ty) (root : Json) (hfur : FurnishedAt env false false t root) (target : Val)
    (hr : Ready env false false t target) (next : Nat) (v : Val) (st' : DState) (h : Conveys env root t [] root target ⟨[], next⟩ v st') :
    ∃ H, HasTy env H v t ∧ (∀ q a u w, st'.get q = some (a, u, w) → H a = some (u, w)) ∧
      ∀ q q' a x x', st'.get q = some (a, x) → st'.get q' = some (a, x') → q = q' := by
  have h0 : HeapOf env false false (fun _ => none) ⟨[], next⟩ := ⟨fun q a t v h => (by cases h), fun q q' a x x' h => (by cases h), fun _ _ => rfl⟩
  obtain ⟨H, hg, hw⟩ := conveys_whole env hl hclk false false t root hfur (by simp) (by simp) root t [] .root target ⟨[], next⟩ v st' _ h0 hr h
  exact ⟨H, hw.1, fun q a u w hq => (hg.heap.1 q a u w hq).1.1, hg.heap.2.1⟩

theorem items_furnished (fin back : Bool) (root : Json) : FurnishedAt sharedEnv fin back tItems root := by
  have other : ∀ t v, (∀ ts, t ≠ .tuple ts) → (∀ c, t ≠ .cls c) → Ready sharedEnv fin back t v := fun t v h1 h2 => .other t v h1 h2
  have hitem : Ready sharedEnv fin back (.cls 1) (.obj [.prim (.int 0), .absent, .prim (.int 7)]) := by
    refine .cls 1 _ (.cons _ _ _ (fun _ => other _ _ (by simp) (by simp)) (by simp) (.cons _ _ _ (by simp) (by simp)
      (.cons _ _ _ (fun _ => other _ _ (by simp) (by simp)) (fun _ => ?_) (.nil _))))
    exact ⟨show int32.InRange 7 by decide, fun _ => rfl, fun _ => trivial⟩
  intro t j loc h
  rcases items_within (node_within h) with rfl | rfl | rfl | rfl | rfl
  all_goals first
    | exact ⟨hitem, hitem⟩
    | exact ⟨other _ _ (by simp) (by simp), other _ _ (by simp) (by simp)⟩

example (v : Val) (st' : DState) (h : Conveys sharedEnv (threeItems (.num (.int 2))) tItems [] (threeItems (.num (.int 2))) .nullptr ⟨[], 5⟩ v st') :
    ∃ H, HasTy sharedEnv H v tItems :=
  let ⟨H, h, _⟩ := C71_graph_partial sharedEnv demo_strict (by decide) tItems _ (items_furnished _ _ _) _ (.other _ _ (by simp) (by simp)) 5 v st' h
  ⟨H, h⟩

/-! ## C69 and C70 with shared pointers -/

/-- **C69 (partial), with shared pointers.** A value that the throwing variant returns for a document in which all references are in order is
a complete object graph, and both serializers are defined on it.

Missing: as for `C69_returned_written_partial` and `C71_throw_exact_partial`. -/
theorem C69_shared_written_partial (env : Env) (hfair : env.Fair) (hl : StrictLess env.less) (hclk : 0 < env.clk) (hd : env.DistinctNames) (t : Ty) (root : Json)
    (hc : Calm env root) (htame : Tame env t root) (hun : Unnested env t) (ho : OrderlyAlts env t root) (hs : ¬ Dangles env root noObjects t root []) (next : Nat)
    (v : Val) (hfur : FurnishedAt env false false t root) (h : deserializeThrow env t root next = .returned v) :
    (∃ H, HasTy env H v t) ∧
    (∀ before, ∃ es, writeToString env t v before = some (finite v, es)) ∧
    (FurnishedAt env true false t root → InReachAt env t root →
      (∀ before, ∃ es, writeToString env t v before = some (true, es)) ∧ ∃ doc tr, serializeToDocument env t v = some (some doc) ∧ Shows env v t [] doc tr) := by
  obtain ⟨st', hv⟩ := ((C71_throw_exact_partial env hd t root hc htame hun ho hs next).1 v).1 h
  obtain ⟨H, hty, -⟩ := C71_graph_partial env hl hclk t root hfur _ (hfur t root [] .root).1 next v st' hv
  have hw : ∀ before, ∃ es, writeToString env t v before = some (finite v, es) := fun before => by
    obtain ⟨es, h1, -⟩ := C29_write_succeeds_iff_finite env hfair _ t v hty before
    exact ⟨es, h1⟩
  refine ⟨⟨H, hty⟩, hw, fun hfur hreach => ?_⟩
  have h0 : HeapOf env true false (fun _ => none) ⟨[], next⟩ := ⟨fun q a t v h => (by cases h), fun q q' a x x' h => (by cases h), fun _ _ => rfl⟩
  obtain ⟨H, -, hg⟩ := conveys_whole env hl hclk true false t root hfur (fun _ => hreach) (by simp) root t [] .root _ ⟨[], next⟩ v st' _ h0 (hfur t root [] .root).1 hv
  have hf := hg.2.1 rfl
  exact ⟨fun before => hf ▸ hw before, C30_nothing_lost_partial env hfair _ t v hty hf⟩

example (next : Nat) : ∃ doc tr, serializeToDocument sharedEnv tItems (.seq [.sptr next (itemOf 1), .sptr next (itemOf 1), .sptr (next + 1) (itemOf 2)]) = some (some doc) ∧
    Shows sharedEnv (.seq [.sptr next (itemOf 1), .sptr next (itemOf 1), .sptr (next + 1) (itemOf 2)]) tItems [] doc tr := by
  obtain ⟨-, -, h⟩ := C69_shared_written_partial sharedEnv fair demo_strict (by decide) shared_distinct tItems _ (items_calm (.num (.int 2)) trivial) (items_tame _) items_unnested
    (items_orderlyAlts _) (items_sound _) next _ (items_furnished _ _ _) rfl
  exact (h (items_furnished _ _ _) fun t n loc h => by rcases items_within (node_within h) with h | h | h | h | h <;> cases h).2

/-- **C70 (partial), with shared pointers.** A value that the throwing variant returns for a document in which all references are in order is
written, and what is written is read as the same object graph by both variants, with other addresses.

Missing: as for `C70_returned_partial`, `C71_throw_exact_partial` and `C26_dom_roundtrip_partial`. -/
theorem C70_shared_partial (env : Env) (hfair : env.Fair) (hl : StrictLess env.less) (hclk : 0 < env.clk) (hd : env.DistinctNames) (t : Ty) (root : Json)
    (hc : Calm env root) (htame : Tame env t root) (hun : Unnested env t) (ho : OrderlyAlts env t root) (hs : ¬ Dangles env root noObjects t root []) (next : Nat)
    (v : Val) (hfur : FurnishedAt env true true t root) (hreach : InReachAt env t root) (hst : StableAt env t root)
    (hsafe : addrs v ≠ [] → env.PlainNames ∧ PathSafe v) (h : deserializeThrow env t root next = .returned v) :
    ∃ doc, serializeToDocument env t v = some (some doc) ∧
      ∀ next, ∃ ρ, (∀ a ∈ addrs v, ∀ b ∈ addrs v, ρ a = ρ b → a = b) ∧ deserializeThrow env t doc next = .returned (rename ρ v) ∧
        ∀ target, deserializeBool env t doc target next = some (true, rename ρ v) := by
  obtain ⟨st', hv⟩ := ((C71_throw_exact_partial env hd t root hc htame hun ho hs next).1 v).1 h
  have h0 : HeapOf env true true (fun _ => none) ⟨[], next⟩ := ⟨fun q a t v h => (by cases h), fun q q' a x x' h => (by cases h), fun _ _ => rfl⟩
  obtain ⟨H, -, h1, h2, h3⟩ := conveys_whole env hl hclk true true t root hfur (fun _ => hreach) (fun _ => hst) root t [] .root _ ⟨[], next⟩ v st' _ h0 (hfur t root [] .root).1 hv
  exact C26_dom_roundtrip_partial env hfair hclk hd H v t h1 (h2 rfl) (h3 rfl) hsafe

theorem items_stable (root : Json) : StableAt sharedEnv tItems root := by
  intro t j loc h
  rcases items_within (node_within h) with rfl | rfl | rfl | rfl | rfl
  all_goals try trivial
  exact ⟨rfl, fun _ => by show lit "$ref" ∉ _; decide +kernel⟩

theorem shared_plain : sharedEnv.PlainNames := demo_plain

example (next : Nat) : ∃ doc, serializeToDocument sharedEnv tItems (.seq [.sptr next (itemOf 1), .sptr next (itemOf 1), .sptr (next + 1) (itemOf 2)]) = some (some doc) :=
  let ⟨doc, h, _⟩ := C70_shared_partial sharedEnv fair demo_strict (by decide) shared_distinct tItems _ (items_calm (.num (.int 2)) trivial) (items_tame _) items_unnested
    (items_orderlyAlts _) (items_sound _) next (.seq [.sptr next (itemOf 1), .sptr next (itemOf 1), .sptr (next + 1) (itemOf 2)]) (items_furnished _ _ _)
    (fun t n loc h => by rcases items_within (node_within h) with h | h | h | h | h <;> cases h)
    (items_stable _) (fun _ => ⟨shared_plain, by simp [PathSafe, PathSafeAll, itemOf]⟩) rfl
  ⟨doc, h⟩

end Verif.Props
