import Verif.EvolveMore
import Verif.Props.References
import Verif.Props.ParseMore

/-!
# C72: classes can evolve

`env` is the program before a change, `env'` the program after it. `Kin env env'` says that they differ in the members of classes only;
`Grown` that a value of the newer program has the same old members as a value of the older one; `Unused` that new members can be left
out and are not in the document.
-/

namespace Verif.Props
open Verif.Core Verif.Numeric Verif.EnumConv Verif.Demo Verif.PerfectHash

/-! ## Examples -/

/-- `struct Item { int id; std::optional<std::string> label; std::optional<std::string> note; int count = 7; int weight = 3; }` -/
def newItem : Class := ⟨lit "Item", [⟨lit "id", .required, tInt⟩, ⟨lit "label", .optional, tStr⟩, ⟨lit "note", .optional, tStr⟩,
  ⟨lit "count", .default, tInt⟩, ⟨lit "weight", .default, tInt⟩]⟩

/-- The program `sharedEnv` after `label` and `weight` have been added to `Item`. -/
def newEnv : Env := { sharedEnv with
  classes := fun c => match c with | 1 => newItem | c => sharedEnv.classes c
  fresh := fun t => match t with | .cls 1 => .obj [.prim (.int 0), .absent, .absent, .prim (.int 7), .prim (.int 3)] | _ => .prim .null
  ctor := fun t => match t with | .cls 1 => .obj [.prim (.int 0), .absent, .absent, .prim (.int 7), .prim (.int 3)] | _ => .prim .null }

/-- The new names. -/
def newNames : List Str := [lit "label", lit "weight"]

theorem new_item : newEnv.members 1 = newItem.members := rfl

theorem new_other (c : Nat) (h : c ≠ 1) : newEnv.members c = sharedEnv.members c := by
  match c with
  | 0 => rfl
  | 1 => exact absurd rfl h
  | n + 2 => rfl

theorem adds_refl {P : Member → Prop} (ms : List Member) : Adds P ms ms := by
  induction ms with
  | nil => exact .nil
  | cons m ms ih => exact .same _ _ _ ih

theorem new_adds (c : Nat) : Adds (fun m => m.kind ≠ .required ∧ m.name ∈ newNames) (sharedEnv.members c) (newEnv.members c) := by
  by_cases h : c = 1
  · subst h
    refine .same _ _ _ (.new _ _ _ ⟨nofun, ?_⟩ (.same _ _ _ (.same _ _ _ (.new _ _ _ ⟨nofun, ?_⟩ .nil))))
    · simp [newNames]
    · simp [newNames]
  · rw [new_other c h]
    exact adds_refl _

theorem new_distinct : newEnv.DistinctNames := by
  intro c
  by_cases h : c = 1
  · subst h
    decide +kernel
  · rw [new_other c h]
    exact shared_distinct c

theorem grown_less {env env' : Env} {t : Ty} {v v' w w' : Val} (h : Grown env env' t v v') (h' : Grown env env' t w w') : Demo.less v' w' = Demo.less v w := by
  have key : ∀ {t v v'}, Grown env env' t v v' → v' = v ∨ (∃ a x x', v = .sptr a x ∧ v' = .sptr a x') ∨ ((∀ u, Demo.less v u = false ∧ Demo.less u v = false) ∧ ∀ u, Demo.less v' u = false ∧ Demo.less u v' = false) := by
    intro t v v' h
    cases h with
    | prim => exact .inl rfl
    | inert => exact .inl rfl
    | sptr _ a x x' _ => exact .inr (.inl ⟨a, x, x', rfl, rfl⟩)
    | _ => exact .inr (.inr ⟨fun u => ⟨rfl, by cases u <;> first | rfl | (rename_i p; cases p <;> rfl)⟩, fun u => ⟨rfl, by cases u <;> first | rfl | (rename_i p; cases p <;> rfl)⟩⟩)
  have sp : ∀ a x x' (u : Val), Demo.less (.sptr a x) u = Demo.less (.sptr a x') u ∧ Demo.less u (.sptr a x) = Demo.less u (.sptr a x') := by
    intro a x x' u
    cases u <;> first | exact ⟨rfl, rfl⟩ | (rename_i p; cases p <;> exact ⟨rfl, rfl⟩)
  rcases key h with rfl | ⟨a, x, x', rfl, rfl⟩ | ⟨h1, h2⟩
  · rcases key h' with rfl | ⟨b, y, y', rfl, rfl⟩ | ⟨h3, h4⟩
    · rfl
    · exact (sp b y' y v').2
    · rw [(h3 v').2, (h4 v').2]
  · rcases key h' with rfl | ⟨b, y, y', rfl, rfl⟩ | ⟨h3, h4⟩
    · exact (sp a x' x w').1
    · rfl
    · rw [(h3 _).2, (h4 _).2]
  · rw [(h1 w).1, (h2 w').1]

/-- Programs with the order of `Demo` in which only objects of `Item` have contents from the start. -/
theorem kin_of {env env' : Env} (hn : env'.DistinctNames) (hclk : env'.clk = env.clk) (hfr : env'.fragment = env.fragment)
    (hl : env.less = Demo.less) (hl' : env'.less = Demo.less) (x x' : Val) (hx : Grown env env' (.cls 1) x x')
    (h1 : ∀ t, t ≠ .cls 1 → env.fresh t = .prim .null ∧ env'.fresh t = .prim .null ∧ env.ctor t = .prim .null ∧ env'.ctor t = .prim .null)
    (h2 : env.fresh (.cls 1) = x ∧ env'.fresh (.cls 1) = x' ∧ env.ctor (.cls 1) = x ∧ env'.ctor (.cls 1) = x') : Kin env env' where
  names := hn
  clk := hclk
  fragment := hfr
  fresh := by
    intro t
    by_cases h : t = .cls 1
    · subst h; rw [h2.1, h2.2.1]; exact hx
    · rw [(h1 t h).1, (h1 t h).2.1]; exact .inert _ _ trivial
  ctor := by
    intro t
    by_cases h : t = .cls 1
    · subst h; rw [h2.2.2.1, h2.2.2.2]; exact hx
    · rw [(h1 t h).2.2.1, (h1 t h).2.2.2]; exact .inert _ _ trivial
  less := fun _ _ _ _ _ h h' => by rw [hl, hl']; exact grown_less h h'

theorem new_kin : Kin sharedEnv newEnv :=
  kin_of new_distinct rfl rfl rfl rfl _ _
    (.cls _ _ _ (.same _ _ _ _ _ _ _ nofun (.prim _ _) (.new _ _ _ _ _ _ (.absent _ _ _ _ _ rfl (.same _ _ _ _ _ _ _ nofun (.prim _ _) (.new _ _ _ _ _ _ .nil))))))
    (fun t h => by unfold sharedEnv newEnv; refine ⟨?_, ?_, ?_, ?_⟩ <;> simp only) ⟨rfl, rfl, rfl, rfl⟩

/-- The parser of the program after the change. -/
def newHost : Host := { host with
  table := fun c => if c = 1 then (match build true (newItem.members.map (·.name)) 100 with | .ok t => t | _ => ⟨[], []⟩) else host.table c }

theorem new_built : TablesBuilt newEnv newHost := by
  have hi : (newEnv.members 1).length ≤ 2 ^ 63 ∧ ∃ t, build true ((newEnv.members 1).map (·.name)) 100 = .ok t := by
    refine ⟨by decide, ?_⟩
    have : (match build true ((newEnv.members 1).map (·.name)) 100 with | .ok _ => true | _ => false) = true := by decide +kernel
    split at this
    · exact ⟨_, by assumption⟩
    · cases this
  intro c
  by_cases h : c = 1
  · subst h
    refine ⟨hi.1, 100, by decide, fun _ => ?_⟩
    obtain ⟨t, ht⟩ := hi.2
    rw [new_item] at ht ⊢
    simp only [newHost, ht, host, if_true]
  · have hb := tables_built c
    have hm : newEnv.members c = Demo.env.members c := new_other c h
    have ht : newHost.table c = host.table c := by
      simp only [newHost, if_neg h]
    rw [hm, ht]
    exact hb

theorem new_roomy : Roomy newHost 100 := roomy_of_sizes newHost 40 8 100 (fun _ => Nat.le_refl _) (fun _ => Nat.le_refl _) (by decide) (by decide)

theorem new_streamable : StreamableClasses newEnv streamed := by
  intro c hc
  by_cases h : c = 1
  · subst h
    refine ⟨by simp [new_item, newItem], ?_⟩
    intro m hm
    simp only [new_item, newItem, List.mem_cons, List.not_mem_nil, or_false] at hm
    rcases hm with rfl | rfl | rfl | rfl | rfl <;> exact rfl
  · rw [new_other c h]
    exact streamable_classes c hc

theorem threeItems_names (n : JsonNum) : NoKeys newNames (threeItems (.num n)) := by
  simp [threeItems, NoKeys, NoKeysAll, NoKeysFields, newNames]
  decide

/-! ## Members are added -/

/-- **C72.** Members that are optional or have defaults are added to classes. Documents in which they do not occur are accepted by
`deserialize(std::string, T&)` after the change exactly if they were accepted before, and the value read is the old one with values for
the new members. For all types, all such documents, also with references, masked members and alternatives. -/
theorem C72_added_bool (env env' : Env) (hk : Kin env env') (t : Ty) (root : Json) (hu : Unused env env' t root) (target target' : Val)
    (ht : Grown env env' t target target') (next : Nat) :
    (deserializeBool env t root target next = none ↔ deserializeBool env' t root target' next = none) ∧
    ∀ ok, (∀ v, deserializeBool env t root target next = some (ok, v) → ∃ v', deserializeBool env' t root target' next = some (ok, v') ∧ Grown env env' t v v') ∧
      ∀ v', deserializeBool env' t root target' next = some (ok, v') → ∃ v, deserializeBool env t root target next = some (ok, v) ∧ Grown env env' t v v' := by
  have h := sim hk root root t hu false target target' [] [] ⟨[], next⟩ ⟨[], next⟩ ht ⟨rfl, .nil⟩
  unfold deserializeBool
  generalize deser env root root false t target [] [] ⟨[], next⟩ = r at h
  generalize deser env' root root false t target' [] [] ⟨[], next⟩ = r' at h
  cases h with
  | ub => exact ⟨Iff.rfl, fun ok => ⟨nofun, nofun⟩⟩
  | threw s e => exact ⟨Iff.rfl, fun ok => ⟨nofun, nofun⟩⟩
  | done ok v v' st st' hv _ =>
    refine ⟨⟨nofun, nofun⟩, fun ok => ⟨fun w hw => ?_, fun w hw => ?_⟩⟩
    · cases hw
      exact ⟨v', rfl, hv⟩
    · cases hw
      exact ⟨v, rfl, hv⟩

/-- **C72.** The throwing variant throws the same exceptions with the same paths, and returns values that agree in the old members. -/
theorem C72_added_throw (env env' : Env) (hk : Kin env env') (t : Ty) (root : Json) (hu : Unused env env' t root) (next : Nat) :
    (∀ path e, deserializeThrow env t root next = .threw path e ↔ deserializeThrow env' t root next = .threw path e) ∧
    (deserializeThrow env t root next = .ub ↔ deserializeThrow env' t root next = .ub) ∧
    (∀ v, deserializeThrow env t root next = .returned v → ∃ v', deserializeThrow env' t root next = .returned v' ∧ Grown env env' t v v') ∧
    ∀ v', deserializeThrow env' t root next = .returned v' → ∃ v, deserializeThrow env t root next = .returned v ∧ Grown env env' t v v' := by
  have h := sim hk root root t hu true _ _ [] [] ⟨[], next⟩ ⟨[], next⟩ (hk.fresh t) ⟨rfl, .nil⟩
  unfold deserializeThrow
  generalize deser env root root true t (env.fresh t) [] [] ⟨[], next⟩ = r at h
  generalize deser env' root root true t (env'.fresh t) [] [] ⟨[], next⟩ = r' at h
  cases h with
  | ub => exact ⟨fun _ _ => Iff.rfl, Iff.rfl, nofun, nofun⟩
  | threw s e => exact ⟨fun _ _ => Iff.rfl, Iff.rfl, nofun, nofun⟩
  | done ok v v' st st' hv _ =>
    refine ⟨fun _ _ => ⟨nofun, nofun⟩, ⟨nofun, nofun⟩, fun w hw => ?_, fun w hw => ?_⟩
    · cases hw
      exact ⟨v', rfl, hv⟩
    · cases hw
      exact ⟨v, rfl, hv⟩

example (n : JsonNum) (next : Nat) (path : Str) (e : Err) :
    deserializeThrow sharedEnv tItems (threeItems (.num n)) next = .threw path e ↔ deserializeThrow newEnv tItems (threeItems (.num n)) next = .threw path e :=
  (C72_added_throw _ _ new_kin tItems _ (unused_of_names newNames new_adds _ _ (threeItems_names n)) next).1 path e

/-- The items that were read before the change, and after it. -/
example (target : Val) (next : Nat) (h : Grown sharedEnv newEnv tItems target target) :
    (∃ v, deserializeBool sharedEnv tItems (threeItems (.num (.int 2))) target next = some (true, v) ∧ v = .seq [.sptr next (itemOf 1), .sptr next (itemOf 1), .sptr (next + 1) (itemOf 2)]) ∧
    ∃ v', deserializeBool newEnv tItems (threeItems (.num (.int 2))) target next = some (true, v') ∧
      Grown sharedEnv newEnv tItems (.seq [.sptr next (itemOf 1), .sptr next (itemOf 1), .sptr (next + 1) (itemOf 2)]) v' := by
  have h0 : deserializeBool sharedEnv tItems (threeItems (.num (.int 2))) target next = some (true, .seq [.sptr next (itemOf 1), .sptr next (itemOf 1), .sptr (next + 1) (itemOf 2)]) := rfl
  exact ⟨⟨_, h0, rfl⟩, ((C72_added_bool _ _ new_kin tItems _ (unused_of_names newNames new_adds _ _ (threeItems_names _)) target target h next).2 true).1 _ h0⟩

/-- **C72.** Files that were written before the change can be read after it: new members may be left out, and their names do not occur
in the file. The value that is read is the value that was written, with the same sharing, with values for the new members.

Missing: values that cannot be read back by the program that wrote them (C26). -/
theorem C72_old_files_partial (env env' : Env) (hk : Kin env env') (names : List Str)
    (ha : ∀ c, Adds (fun m => m.kind ≠ .required ∧ m.name ∈ names) (env.members c) (env'.members c))
    (hfair : env.Fair) (hclk : 0 < env.clk) (hdist : env.DistinctNames) (H : Heap) (v : Val) (t : Ty) (hty : HasTy env H v t) (hf : finite v = true)
    (hr : Readable env v t) (hs : addrs v ≠ [] → env.PlainNames ∧ PathSafe v) :
    ∃ doc, serializeToDocument env t v = some (some doc) ∧ (NoKeys names doc →
      ∀ next, ∃ ρ, (∀ a ∈ addrs v, ∀ b ∈ addrs v, ρ a = ρ b → a = b) ∧
        (∃ v', deserializeThrow env' t doc next = .returned v' ∧ Grown env env' t (rename ρ v) v') ∧
        ∀ target target', Grown env env' t target target' → ∃ v', deserializeBool env' t doc target' next = some (true, v') ∧ Grown env env' t (rename ρ v) v') := by
  obtain ⟨doc, h1, h2⟩ := C26_dom_roundtrip_partial env hfair hclk hdist H v t hty hf hr hs
  refine ⟨doc, h1, fun hn next => ?_⟩
  obtain ⟨ρ, h3, h4, h5⟩ := h2 next
  have hu := unused_of_names names ha t doc hn
  exact ⟨ρ, h3, (C72_added_throw env env' hk t doc hu next).2.2.1 _ h4, fun target target' ht =>
    ((C72_added_bool env env' hk t doc hu target target' ht next).2 true).1 _ (h5 target)⟩

/-- `Demo.env` with the new members of `Item`. -/
def demoNew : Env := { Demo.env with classes := fun c => match c with | 1 => newItem | c => Demo.env.classes c }

theorem demoNew_other (c : Nat) (h : c ≠ 1) : demoNew.members c = Demo.env.members c := new_other c h

theorem demoNew_kin : Kin Demo.env demoNew :=
  kin_of (fun c => new_distinct c) rfl rfl rfl rfl (.prim .null) (.prim .null) (.inert _ _ trivial) (fun _ _ => ⟨rfl, rfl, rfl, rfl⟩) ⟨rfl, rfl, rfl, rfl⟩

/-- `[{"left": {"id": 7, "note": "ok", "count": 2}, "right": {"id": 8, "count": 0}}, {"left": {"$ref": "/0/right"}, "right": {"$ref": "/0/left"}}]` -/
def crowdDoc : Json := .arr [
  .obj [(lit "left", .obj [(lit "id", .num (.int 7)), (lit "note", .str (lit "ok")), (lit "count", .num (.int 2))]),
    (lit "right", .obj [(lit "id", .num (.int 8)), (lit "count", .num (.int 0))])],
  .obj [(lit "left", .obj [(lit "$ref", .str (lit "/0/right"))]), (lit "right", .obj [(lit "$ref", .str (lit "/0/left"))])]]

example (next : Nat) : ∃ ρ v', deserializeThrow demoNew (.vec (.cls 2)) crowdDoc next = .returned v' ∧ Grown Demo.env demoNew (.vec (.cls 2)) (rename ρ crowd) v' := by
  obtain ⟨doc, h1, h2⟩ := C72_old_files_partial Demo.env demoNew demoNew_kin newNames (fun c => new_adds c) fair (by decide) demo_distinct heap _ _ ty_crowd (by decide +kernel)
    crowd_readable (fun _ => ⟨demo_plain, crowd_safe⟩)
  have h : serializeToDocument Demo.env (.vec (.cls 2)) crowd = some (some crowdDoc) := rfl
  rw [h] at h1
  cases h1
  obtain ⟨ρ, -, ⟨v', h3, h4⟩, -⟩ := h2 (by simp [crowdDoc, NoKeys, NoKeysAll, NoKeysFields, newNames]; decide) next
  exact ⟨ρ, v', h3, h4⟩

/-- **C72, streaming parser.** Members of any kind are added. Documents in which their names do not occur are accepted by `parse` after
the change exactly if they were accepted before, and the value read is the old one with values for the new members.

Missing: types and depths for which the parser does not follow the document (C42). -/
theorem C72_parser_partial (env env' : Env) (hk : Kin env env') (names : List Str) (ha : ∀ c, Adds (fun m => m.name ∈ names) (env.members c) (env'.members c))
    (host host' : Host) (G : Nat → Prop) (hG : StreamableClasses env G) (hG' : StreamableClasses env' G) (hb : TablesBuilt env host) (hb' : TablesBuilt env' host')
    (d : Nat) (hroom : Roomy host d) (hroom' : Roomy host' d) (t : Ty) (hs : Streamable G t) (j : Json) (hd : j.depth ≤ d) (hp : j.proper = true) (hn : NoKeys names j)
    (target target' : Val) (ht : Grown env env' t target target') (n : Nat) :
    (parseBool env host t (.document j) target n = .rejected ↔ parseBool env' host' t (.document j) target' n = .rejected) ∧
    (∀ v, parseBool env host t (.document j) target n = .accepted v → ∃ v', parseBool env' host' t (.document j) target' n = .accepted v' ∧ Grown env env' t v v') ∧
    ∀ v', parseBool env' host' t (.document j) target' n = .accepted v' → ∃ v, parseBool env host t (.document j) target n = .accepted v ∧ Grown env env' t v v' := by
  rw [C42_document_partial env host G hG hb d hroom t hs j hd hp, C42_document_partial env' host' G hG' hb' d hroom' t hs j hd hp]
  have h := simM hk names ha j t hn target target' n ht
  generalize meaning env j t target n = r at h
  generalize meaning env' j t target' n = r' at h
  cases h with
  | ub => exact ⟨Iff.rfl, nofun, nofun⟩
  | no => exact ⟨Iff.rfl, nofun, nofun⟩
  | yes v v' n hv =>
    refine ⟨⟨nofun, nofun⟩, fun w hw => ?_, fun w hw => ?_⟩
    · cases hw
      exact ⟨v', rfl, hv⟩
    · cases hw
      exact ⟨v, rfl, hv⟩

/-- `[{"id": j}]` -/
def oneItem (j : Json) : Json := .arr [.obj [(lit "id", j)]]

example (k : Int) (hk : i64.min ≤ k ∧ k ≤ u64.max) (target : Val) (h : Grown sharedEnv newEnv (.vec (.cls 1)) target target) (n : Nat) :
    parseBool sharedEnv host (.vec (.cls 1)) (.document (oneItem (.num (.int k)))) target n = .rejected ↔
      parseBool newEnv newHost (.vec (.cls 1)) (.document (oneItem (.num (.int k)))) target n = .rejected :=
  (C72_parser_partial sharedEnv newEnv new_kin newNames (fun c => (new_adds c).mono fun _ h => h.2) host newHost streamed streamable_classes new_streamable tables_built new_built
    100 host_roomy new_roomy (.vec (.cls 1)) ⟨rfl, .inr (.inl rfl)⟩ _ (by simp [oneItem, Json.depth, Json.depthAll, Json.depthFields]) (by simp [oneItem, Json.proper, Json.properAll, Json.properFields, hk])
    (by simp [oneItem, NoKeys, NoKeysAll, NoKeysFields, newNames]; decide) target target h n).1

/-- `sharedEnv` with a further member of `Item` that is required. -/
def strictEnv : Env := { sharedEnv with
  classes := fun c => match c with | 1 => ⟨lit "Item", sharedEnv.members 1 ++ [⟨lit "code", .required, tInt⟩]⟩ | c => sharedEnv.classes c
  fresh := fun t => match t with | .cls 1 => .obj [.prim (.int 0), .absent, .prim (.int 7), .prim (.int 0)] | _ => .prim .null
  ctor := fun t => match t with | .cls 1 => .obj [.prim (.int 0), .absent, .prim (.int 7), .prim (.int 0)] | _ => .prim .null }

theorem strict_other (c : Nat) (h : c ≠ 1) : strictEnv.members c = sharedEnv.members c := by
  match c with
  | 0 => rfl
  | 1 => exact absurd rfl h
  | n + 2 => rfl

theorem strict_distinct : strictEnv.DistinctNames := by
  intro c
  by_cases h : c = 1
  · subst h
    decide +kernel
  · rw [strict_other c h]
    exact shared_distinct c

theorem strict_kin : Kin sharedEnv strictEnv :=
  kin_of strict_distinct rfl rfl rfl rfl _ _
    (.cls _ _ _ (.same _ _ _ _ _ _ _ nofun (.prim _ _) (.absent _ _ _ _ _ rfl (.same _ _ _ _ _ _ _ nofun (.prim _ _) (.new _ _ _ _ _ _ .nil)))))
    (fun t h => by unfold sharedEnv strictEnv; refine ⟨?_, ?_, ?_, ?_⟩ <;> simp only) ⟨rfl, rfl, rfl, rfl⟩

/-- **C72, negation.** A required member is added: documents of the older program are rejected, with the name of the member. The streaming
parser accepts them (`C72_parser_partial` asks nothing of the kind of the new members). -/
theorem C72_required_added (next : Nat) : Kin sharedEnv strictEnv ∧ (∀ c, c ≠ 1 → strictEnv.members c = sharedEnv.members c) ∧
    strictEnv.members 1 = sharedEnv.members 1 ++ [⟨lit "code", .required, tInt⟩] ∧
    deserializeThrow sharedEnv (.vec (.cls 1)) (oneItem (.num (.int 1))) next = .returned (.seq [itemOf 1]) ∧
    deserializeThrow strictEnv (.vec (.cls 1)) (oneItem (.num (.int 1))) next = .threw (lit "/0") (.missing (lit "code")) :=
  ⟨strict_kin, strict_other, rfl, rfl, rfl⟩

/-! ## Members are removed -/

theorem within_newer {env env' : Env} {P : Member → Prop} (ha : ∀ c, Adds P (env.members c) (env'.members c)) {t u : Ty} (h : Within env t u) : Within env' t u := by
  induction h with
  | self => exact .self
  | inner t1 t2 _ hi ih =>
    refine .inner _ _ ih ?_
    cases hi with
    | vec => exact .vec _
    | arr => exact .arr _ _
    | set => exact .set _
    | map => exact .map _ _
    | dict => exact .dict _
    | tuple _ _ h => exact .tuple _ _ h
    | variant _ _ h => exact .variant _ _ h
    | cls c m h => exact .cls c m ((ha c).mem h)
    | uptr => exact .uptr _
    | sptr => exact .sptr _

theorem part_inside {env : Env} {t t' : Ty} {j j' : Json} (h : Part env t j t' j') : Within env t t' := by
  induction h with
  | self => exact .self
  | child t1 j1 t2 j2 _ hc ih =>
    refine .inner _ _ ih ?_
    cases hc with
    | vec => exact .vec _
    | arr => exact .arr _ _
    | set => exact .set _
    | map => exact .map _ _
    | dict => exact .dict _
    | tuple _ _ _ _ _ h => exact .tuple _ _ (List.mem_of_getElem? h)
    | variant _ _ _ h => exact .variant _ _ h
    | cls c _ m _ _ h => exact .cls c m h
    | uptr => exact .uptr _

theorem calm_kin {env env' : Env} (hk : Kin env env') (j : Json) : Calm env j → Calm env' j := by
  have hs : ∀ s, CalmStr env s → CalmStr env' s := fun s h => by unfold CalmStr at h ⊢; rwa [hk.clk]
  refine Json.rec (motive_1 := fun j => Calm env j → Calm env' j) (motive_2 := fun js => CalmAll env js → CalmAll env' js)
    (motive_3 := fun ms => CalmFields env ms → CalmFields env' ms) (motive_4 := fun p => Calm env p.2 → Calm env' p.2) ?_ ?_ ?_ ?_ ?_ ?_ ?_ ?_ ?_ ?_ ?_ j
  · exact id
  · exact fun _ => id
  · exact fun _ => id
  · exact hs
  · exact fun _ h => h
  · exact fun _ h => h
  · exact id
  · exact fun _ _ h1 h2 h => ⟨h1 h.1, h2 h.2⟩
  · exact id
  · exact fun _ _ h1 h2 h => ⟨h1 h.1, h2 h.2⟩
  · exact fun _ _ h => h

/-- **C72, the other way round.** Documents of the newer program are read by the older one: whatever members of whatever kind have been
added, a document that the throwing variant accepts after the change, it accepts before the change, and the values agree in the
members of the older program.

Missing: shared pointers and variants, for which the claim is false (`C72_older_reference`, `C72_older_variant`); the boolean variant
(`C72_older_masked`) and the streaming parser (`C72_older_parser`), for which it is false too. -/
theorem C72_older_partial (env env' : Env) (hk : Kin env env') (hu : env.Unshared) (hu' : env'.Unshared) (ha : ∀ c, Adds (fun _ => True) (env.members c) (env'.members c))
    (t : Ty) (ht : t.unshared = true) (hv : ∀ ts, ¬ Within env' t (.variant ts)) (root : Json) (hc : Calm env root) (next : Nat) (v' : Val)
    (h : deserializeThrow env' t root next = .returned v') : ∃ v, deserializeThrow env t root next = .returned v ∧ Grown env env' t v v' := by
  have h1 := ((C33_exact_partial env' hu' t ht root (calm_kin hk root hc) (fun ts j' hp => absurd (part_inside hp) (hv ts)) next).2 v').1 h
  obtain ⟨v, h2, h3⟩ := decodes_older hk ha root t (fun ts hw => hv ts (within_newer ha hw)) _ _ v' (hk.fresh t) h1
  exact ⟨v, ((C33_exact_partial env hu t ht root hc (fun ts j' hp => absurd (within_newer ha (part_inside hp)) (hv ts)) next).2 v).2 h2, h3⟩

/-- `plainEnv` with the new members of `Item`. -/
def plainNew : Env := { plainEnv with classes := fun c => match c with | 1 => newItem | c => plainEnv.classes c }

theorem plainNew_other (c : Nat) (h : c ≠ 1) : plainNew.members c = plainEnv.members c := by
  match c with
  | 0 => rfl
  | 1 => exact absurd rfl h
  | n + 2 => rfl

theorem plainNew_unshared : plainNew.Unshared := by
  intro c
  by_cases h : c = 1
  · subst h
    show ∀ m ∈ newItem.members, m.ty.unshared = true
    decide
  · have := plainEnv_unshared c
    rwa [← plainNew_other c h] at this

theorem plainNew_adds (c : Nat) : Adds (fun _ => True) (plainEnv.members c) (plainNew.members c) := by
  by_cases h : c = 1
  · subst h
    exact (new_adds 1).mono fun _ _ => trivial
  · rw [plainNew_other c h]
    exact adds_refl _

theorem plainNew_kin : Kin plainEnv plainNew := by
  refine kin_of (fun c => ?_) rfl rfl rfl rfl (.prim .null) (.prim .null) (.inert _ _ trivial) (fun _ _ => ⟨rfl, rfl, rfl, rfl⟩) ⟨rfl, rfl, rfl, rfl⟩
  by_cases h : c = 1
  · subst h
    exact new_distinct 1
  · rw [plainNew_other c h]
    exact plain_distinct c

theorem newItem_within {t : Ty} (h : Within plainNew (.cls 1) t) : t = .cls 1 ∨ t = tInt ∨ t = tStr := by
  induction h with
  | self => exact .inl rfl
  | inner t1 t2 _ hi ih =>
    rcases ih with rfl | rfl | rfl
    · cases hi with
      | cls _ m hm =>
        have : m ∈ newItem.members := hm
        simp only [newItem, List.mem_cons, List.not_mem_nil, or_false] at this
        rcases this with rfl | rfl | rfl | rfl | rfl <;> simp
    · cases hi
    · cases hi

/-- `{"id": 1, "count": 5, "weight": 2, "label": "x"}` -/
example (next : Nat) : ∃ v v', deserializeThrow plainNew (.cls 1)
      (.obj [(lit "id", .num (.int 1)), (lit "count", .num (.int 5)), (lit "weight", .num (.int 2)), (lit "label", .str (lit "x"))]) next = .returned v' ∧
    deserializeThrow plainEnv (.cls 1)
      (.obj [(lit "id", .num (.int 1)), (lit "count", .num (.int 5)), (lit "weight", .num (.int 2)), (lit "label", .str (lit "x"))]) next = .returned v ∧
    Grown plainEnv plainNew (.cls 1) v v' := by
  obtain ⟨v, h1, h2⟩ := C72_older_partial plainEnv plainNew plainNew_kin plainEnv_unshared plainNew_unshared plainNew_adds (.cls 1) rfl
    (fun ts h => by rcases newItem_within h with h | h | h <;> cases h)
    (.obj [(lit "id", .num (.int 1)), (lit "count", .num (.int 5)), (lit "weight", .num (.int 2)), (lit "label", .str (lit "x"))])
    (by simp only [Calm, CalmFields, CalmStr, and_true, true_and, ne_eq]; decide +kernel) next _ rfl
  exact ⟨v, _, rfl, h1, h2⟩

/-- `{"id": 1, "label": 5}` -/
def labelled : Json := .obj [(lit "id", .num (.int 1)), (lit "label", .num (.int 5))]

/-- **C72, negation.** A variant of `Item` and a map: the document is a map for the newer program, because the new member `label` of `Item` is a
string, and an `Item` for the older one. -/
theorem C72_older_variant (next : Nat) : Kin sharedEnv newEnv ∧
    deserializeThrow newEnv (.variant [.cls 1, .map true tInt]) labelled next = .returned (.alt 1 (.map [(lit "id", .prim (.int 1)), (lit "label", .prim (.int 5))])) ∧
    deserializeThrow sharedEnv (.variant [.cls 1, .map true tInt]) labelled next = .returned (.alt 0 (itemOf 1)) :=
  ⟨new_kin, rfl, rfl⟩

/-- **C72, negation.** The boolean variant: the new member `weight` conceals from the newer program that `count` is no number; the older program
rejects the document. -/
theorem C72_older_masked (target : Val) (next : Nat) : ∃ doc v w,
    deserializeBool newEnv (.cls 1) doc target next = some (true, v) ∧ deserializeBool sharedEnv (.cls 1) doc target next = some (false, w) :=
  ⟨.obj [(lit "id", .num (.int 1)), (lit "count", .bool true), (lit "weight", .num (.int 2))], _, _, rfl, rfl⟩

/-- **C72, negation.** The streaming parser of the older program accepts no document with a new member. -/
theorem C72_older_parser (target v : Val) (n : Nat) : parseBool sharedEnv host (.cls 1) (.document labelled) target n ≠ .accepted v :=
  C37_parser_unknown_rejected sharedEnv host tables_built 1 _ (lit "label") (by simp) (by show _ ∉ item.members.map (·.name); decide +kernel) target v n

/-- `sharedEnv` before the member `left` has been added to `Both`. -/
def leanEnv : Env := { sharedEnv with classes := fun c => match c with | 2 => ⟨lit "Both", [⟨lit "right", .required, .sptr (.cls 1)⟩]⟩ | c => sharedEnv.classes c }

theorem lean_kin : Kin leanEnv sharedEnv :=
  kin_of shared_distinct rfl rfl rfl rfl _ _
    (.cls _ _ _ (.same _ _ _ _ _ _ _ nofun (.prim _ _) (.absent _ _ _ _ _ rfl (.same _ _ _ _ _ _ _ nofun (.prim _ _) .nil))))
    (fun t h => by unfold leanEnv sharedEnv; refine ⟨?_, ?_, ?_, ?_⟩ <;> simp only) ⟨rfl, rfl, rfl, rfl⟩

/-- **C72, negation.** An object in a new member to which an old member refers is not read by the older program, and the reference is not resolved. -/
theorem C72_older_reference (next : Nat) : ∃ doc, Kin leanEnv sharedEnv ∧
    deserializeThrow sharedEnv (.cls 2) doc next = .returned (.obj [.sptr next (itemOf 1), .sptr next (itemOf 1)]) ∧
    deserializeThrow leanEnv (.cls 2) doc next = .returned (.obj [.prim .null]) :=
  ⟨.obj [(lit "left", .obj [(lit "id", .num (.int 1))]), (lit "right", .obj [(lit "$ref", .str (lit "/left"))])], lean_kin, rfl, rfl⟩

end Verif.Props
