import Verif.ParseBack
import Verif.Props.ParseMore

/-!
# C27: writing a value and parsing the text
-/

namespace Verif.Props
open Verif.Core Verif.Numeric Verif.EnumConv Verif.Demo

/-- **C27 (partial).** A value that is written is read back by the streaming parser into a new object; shared
objects get new addresses, different ones for different objects. `Parsable` asks for leaves that are represented
exactly (`LeafGood`); `Streamable` leaves out the types of C44 and C45; every shared object is used once, so there
are no references in the text; new objects are empty (`BlankCtor`); the nesting is at most what the handler stack
has room for.

Missing: the values excluded by the hypotheses; for some the claim is false (`C27_dictionary`, `C27_default_contents`,
`C27_shared_twice`, `C27_depth`, `C44_written_rejected`, `C45_numbers_rejected`). -/
theorem C27_text_roundtrip_partial (env : Env) (hfair : env.Fair) (hclk : 0 < env.clk) (hdist : env.DistinctNames) (hc : env.BlankCtor) (host : Host)
    (G : Nat → Prop) (hG : StreamableClasses env G) (hb : TablesBuilt env host) (d : Nat) (hroom : Roomy host d) (t : Ty) (hst : Streamable G t)
    (H : Heap) (v : Val) (ht : HasTy env H v t) (hf : finite v = true) (hp : Parsable env v t) (hd : (addrs v).Nodup) (before : List Event) :
    ∃ doc, writeToString env t v before = some (true, events doc) ∧
      (doc.depth ≤ d → ∀ target n, Blank env t target → ∃ ρ, (∀ a ∈ addrs v, ∀ b ∈ addrs v, ρ a = ρ b → a = b) ∧
        parseBool env host t (.document doc) target n = .accepted (rename ρ v)) := by
  obtain ⟨new, doc, tr, h1, h2, h3⟩ := serOk env hfair H v t [] [] [] ht hf
  obtain ⟨es, hw, -⟩ := C29_write_succeeds_iff_finite env hfair H t v ht before
  rw [hf] at hw
  obtain ⟨j, hj, rfl⟩ := C28_same_text_partial env t v before es hw
  have : j = doc := by
    rw [serializeToDocument, h1] at hj
    simp only [Option.some.injEq] at hj
    exact hj.symm
  subst this
  refine ⟨j, hw, fun hdep target n hbl => ?_⟩
  obtain ⟨ρ, n', h4, f⟩ := back env hclk hdist hc H v t [] j tr target n h2 (noRef_of_nodup env h2 hd h3.good) ht hp hd hbl
  refine ⟨ρ, f.inj, ?_⟩
  rw [C42_document_partial env host G hG hb d hroom t hst j hdep (showsProper env H v t [] j tr h2 ht) target n, h4]
  rfl

/-- **C27 (partial).** Without shared objects the value read is the value written; the overload that returns the
value reads into a variable that is only default-initialised. -/
theorem C27_unshared_roundtrip_partial (env : Env) (hfair : env.Fair) (hclk : 0 < env.clk) (hdist : env.DistinctNames) (hc : env.BlankCtor) (host : Host)
    (G : Nat → Prop) (hG : StreamableClasses env G) (hb : TablesBuilt env host) (d : Nat) (hroom : Roomy host d) (t : Ty) (hst : Streamable G t)
    (v : Val) (ht : HasTy env (fun _ => none) v t) (hf : finite v = true) (hp : Parsable env v t) (before : List Event) :
    ∃ doc, writeToString env t v before = some (true, events doc) ∧
      (doc.depth ≤ d → (∀ target n, Blank env t target → parseBool env host t (.document doc) target n = .accepted v) ∧
        (Blank env t (env.fresh t) → ∀ n, parseThrow env host t (.document doc) n = .returned v)) := by
  have hno : addrs v = [] := by
    rw [List.eq_nil_iff_forall_not_mem]
    intro a ha
    obtain ⟨t', w, h, -⟩ := addrs_size env _ v t ht a ha
    cases h
  obtain ⟨doc, h1, h2⟩ := C27_text_roundtrip_partial env hfair hclk hdist hc host G hG hb d hroom t hst _ v ht hf hp (by rw [hno]; exact List.nodup_nil) before
  have key : doc.depth ≤ d → ∀ target n, Blank env t target → parseBool env host t (.document doc) target n = .accepted v := by
    intro hd target n hbl
    obtain ⟨ρ, -, h3⟩ := h2 hd target n hbl
    rwa [rename_noaddr ρ v hno] at h3
  exact ⟨doc, h1, fun hd => ⟨key hd, fun hbl n => by rw [parseThrow, key hd _ n hbl]⟩⟩

/-! ## Examples -/

/-- New objects have no contents. -/
abbrev Flat (env : Env) : Prop := ∀ t, env.ctor t = .prim .null

theorem replicate_fit (env : Env) (hf : Flat env) (n : Nat) (t : Ty) : ∀ u ∈ fit env (List.replicate n t) [], u = .prim .null := by
  induction n with
  | zero => simp [fit]
  | succ n ih =>
    intro u hu
    rw [List.replicate_succ, fit] at hu
    rcases List.mem_cons.1 hu with rfl | hu
    · exact hf t
    · exact ih u hu

theorem fit_null (env : Env) (hf : Flat env) (ts : List Ty) (i : Nat) (u : Val) (h : (fit env ts [])[i]? = some u) : u = .prim .null := by
  induction ts generalizing i with
  | nil => simp [fit] at h
  | cons t ts ih =>
    cases i with
    | zero => simp [fit] at h; rw [← h]; exact hf t
    | succ i => simp only [fit, List.getElem?_cons_succ, List.tail_nil] at h; exact ih i h

theorem fitMembers_null (env : Env) (hf : Flat env) (ms : List Member) (i : Nat) (m : Member) (u : Val) (hm : ms[i]? = some m)
    (h : (fitMembers env ms [])[i]? = some u) : u = if m.kind = .optional then .absent else .prim .null := by
  induction ms generalizing i with
  | nil => simp [fitMembers] at h
  | cons m' ms ih =>
    cases i with
    | zero =>
      simp only [List.getElem?_cons_zero, Option.some.injEq] at hm
      subst hm
      simp only [fitMembers, List.getElem?_cons_zero, Option.some.injEq, List.headD_nil] at h
      rw [← h, hf]
    | succ i =>
      simp only [fitMembers, List.getElem?_cons_succ, List.tail_nil] at h hm
      exact ih i hm h

/-- For the classes, all members are empty. -/
theorem blank_class (env : Env) (hf : Flat env) (c : Nat) (h : ∀ m ∈ env.members c, m.kind ≠ .optional → Blank env m.ty (.prim .null)) :
    Blank env (.cls c) (.prim .null) := by
  refine .cls c _ ?_ ?_
  · intro i m u hm hu hk
    rw [fitMembers_null env hf _ i m u hm hu, if_pos hk]
  · intro i m u hm hu hk
    rw [fitMembers_null env hf _ i m u hm hu, if_neg hk]
    exact h m (List.mem_of_getElem? hm) hk

theorem blank_arr (env : Env) (hf : Flat env) (n : Nat) (t : Ty) (h : Blank env t (.prim .null)) : Blank env (.arr n t) (.prim .null) := by
  refine .arr n t _ fun u hu => ?_
  rw [replicate_fit env hf n t u hu]
  exact h

theorem blank_tuple (env : Env) (hf : Flat env) (ts : List Ty) (h : ∀ t ∈ ts, Blank env t (.prim .null)) : Blank env (.tuple ts) (.prim .null) := by
  refine .tuple ts _ fun i t u ht hu => ?_
  rw [fit_null env hf ts i u hu]
  exact h t (List.mem_of_getElem? ht)

mutual
theorem blank_all (env : Env) (hf : Flat env) (h : ∀ c, Blank env (.cls c) (.prim .null)) : ∀ t, Blank env t (.prim .null)
  | .prim p => .prim p _
  | .uptr t => .uptr t _
  | .sptr t => .sptr t _
  | .variant ts => .variant ts _
  | .vec t => .vec t _ rfl
  | .set t => .set t _ rfl
  | .map o t => .map o t _ rfl
  | .dict t => .dict t _ rfl
  | .arr n t => blank_arr env hf n t (blank_all env hf h t)
  | .tuple ts => blank_tuple env hf ts (blank_alls env hf h ts)
  | .cls c => h c

theorem blank_alls (env : Env) (hf : Flat env) (h : ∀ c, Blank env (.cls c) (.prim .null)) : ∀ ts : List Ty, ∀ t ∈ ts, Blank env t (.prim .null)
  | [] => by simp
  | t :: ts => fun t' h' => (List.mem_cons.1 h').elim (fun e => e ▸ blank_all env hf h t) (blank_alls env hf h ts t')
end

theorem demo_flat : Flat Demo.env := fun _ => rfl

theorem tree_blank (env : Env) (m : Member) (hm : m ∈ tree.members) : Blank env m.ty (.prim .null) := by
  simp only [tree, List.mem_cons, List.not_mem_nil, or_false] at hm
  rcases hm with rfl | rfl
  · exact .prim _ _
  · exact .vec _ _ rfl

theorem demo_blank_classes (c : Nat) : Blank Demo.env (.cls c) (.prim .null) := by
  apply blank_class _ demo_flat
  intro m hm hk
  match c with
  | 0 =>
    simp only [Env.members, Demo.env, point, List.mem_cons, List.not_mem_nil, or_false] at hm
    rcases hm with rfl | rfl <;> exact .prim _ _
  | 1 =>
    simp only [Env.members, Demo.env, item, List.mem_cons, List.not_mem_nil, or_false] at hm
    rcases hm with rfl | rfl | rfl <;> exact .prim _ _
  | 2 =>
    simp only [Env.members, Demo.env, both, List.mem_cons, List.not_mem_nil, or_false] at hm
    rcases hm with rfl | rfl <;> exact .sptr _ _
  | 3 =>
    simp only [Env.members, Demo.env, bag, List.mem_cons, List.not_mem_nil, or_false] at hm
    rcases hm with rfl | rfl
    · exact .set _ _ rfl
    · exact .sptr _ _
  | 4 => exact tree_blank _ m hm
  | 5 =>
    simp only [Env.members, Demo.env, sample, List.mem_cons, List.not_mem_nil, or_false] at hm
    rcases hm with rfl | rfl | rfl | rfl | rfl | rfl | rfl | rfl | rfl | rfl | rfl
    · exact .prim _ _
    · exact .prim _ _
    · exact .prim _ _
    · exact .prim _ _
    · exact .prim _ _
    · exact .set _ _ rfl
    · exact .map _ _ _ rfl
    · exact .variant _ _
    · exact .uptr _ _
    · refine blank_tuple _ demo_flat _ fun t ht => ?_
      simp only [List.mem_cons, List.not_mem_nil, or_false] at ht
      rcases ht with rfl | rfl <;> exact .prim _ _
    · exact blank_arr _ demo_flat _ _ (.prim _ _)
  | n + 6 => exact tree_blank _ m hm

theorem demo_blank_ctor : Demo.env.BlankCtor := blank_all _ demo_flat demo_blank_classes

/-- `Tree{1, {Tree{2, {}}, Tree{3, {}}}}` -/
def forest : Val := .obj [.prim (.int 1), .seq [.obj [.prim (.int 2), .seq []], .obj [.prim (.int 3), .seq []]]]

example : ∃ doc, writeToString Demo.env (.cls 4) forest [] = some (true, events doc) ∧
    (doc.depth ≤ 100 → (∀ target n, Blank Demo.env (.cls 4) target → parseBool Demo.env host (.cls 4) (.document doc) target n = .accepted forest) ∧
      (Blank Demo.env (.cls 4) (Demo.env.fresh (.cls 4)) → ∀ n, parseThrow Demo.env host (.cls 4) (.document doc) n = .returned forest)) :=
  C27_unshared_roundtrip_partial Demo.env fair (by decide) demo_distinct demo_blank_ctor host streamed streamable_classes tables_built 100 host_roomy (.cls 4)
    (.inr (.inr rfl)) forest
    (by simp [forest, HasTy, MembersTy, AllTy, PrimTy, Env.members, Demo.env, tree]; decide) rfl
    (by simp [forest, Parsable, ParsableMembers, ParsableAll, LeafGood, Env.members, Demo.env, tree]) []

/-- `std::map<std::string, std::shared_ptr<Item>>` with two items -/
def shelf : Val := .map [(lit "a", .sptr 100 item7), (lit "b", .sptr 200 item8)]

theorem item_ty (H : Heap) : HasTy Demo.env H item7 (.cls 1) ∧ HasTy Demo.env H item8 (.cls 1) := by
  simp [item7, item8, HasTy, Env.members, Demo.env, item, MembersTy, PrimTy]
  decide

example : ∃ doc, writeToString Demo.env (.map false (.sptr (.cls 1))) shelf [] = some (true, events doc) ∧
    (doc.depth ≤ 100 → ∀ target n, Blank Demo.env (.map false (.sptr (.cls 1))) target → ∃ ρ, (∀ a ∈ addrs shelf, ∀ b ∈ addrs shelf, ρ a = ρ b → a = b) ∧
      parseBool Demo.env host (.map false (.sptr (.cls 1))) (.document doc) target n = .accepted (rename ρ shelf)) :=
  C27_text_roundtrip_partial Demo.env fair (by decide) demo_distinct demo_blank_ctor host streamed streamable_classes tables_built 100 host_roomy
    (.map false (.sptr (.cls 1))) (.inr (.inl rfl)) heap shelf
    (by
      have := item_ty heap
      simp only [shelf, HasTy, ValsTy, this, and_true]
      exact ⟨⟨rfl, rfl⟩, by simp [Ascending]; decide⟩) rfl
    (by simp [shelf, Parsable, ParsableVals, ParsableMembers, LeafGood, item7, item8, Env.members, Demo.env, item]) (by decide) []

/-! ## Where it fails -/

/-- **C27, negation.** A dictionary (vector of pairs) is written as an object, but read as an array: nothing that is
written for a dictionary is accepted. -/
theorem C27_dictionary (env : Env) (hfair : env.Fair) (H : Heap) (host : Host) (t : Ty) (kvs : List (Str × Val)) (ht : HasTy env H (.dict kvs) (.dict t))
    (hf : finite (.dict kvs) = true) (before : List Event) :
    ∃ doc, writeToString env (.dict t) (.dict kvs) before = some (true, events doc) ∧
      ∀ target n v, parseBool env host (.dict t) (.document doc) target n ≠ .accepted v := by
  obtain ⟨new, doc, tr, h1, h2, h3⟩ := serOk env hfair H _ _ [] [] [] ht hf
  obtain ⟨es, hw, -⟩ := C29_write_succeeds_iff_finite env hfair H _ _ ht before
  rw [hf] at hw
  obtain ⟨j, hj, rfl⟩ := C28_same_text_partial env _ _ before es hw
  have : j = doc := by
    rw [serializeToDocument, h1] at hj
    simp only [Option.some.injEq] at hj
    exact hj.symm
  subst this
  refine ⟨j, hw, fun target n v h => ?_⟩
  cases h2 with
  | dict s =>
    rw [parseBool_document] at h
    simp only [openP, pval, objectFn] at h
    split at h <;> cases h

example (target v : Val) : ∃ doc, writeToString Demo.env (.dict tInt) (.dict [(lit "k", .prim (.int 1))]) [] = some (true, events doc) ∧
    parseBool Demo.env host (.dict tInt) (.document doc) target 0 ≠ .accepted v := by
  obtain ⟨doc, h1, h2⟩ := C27_dictionary Demo.env fair heap host tInt [(lit "k", .prim (.int 1))] (by simp [HasTy, ValsTy, PrimTy]; decide) rfl []
  exact ⟨doc, h1, h2 target 0 v⟩

/-- A class whose member is not empty in a new object: `struct Box { std::vector<int> items{5}; };` -/
def boxEnv : Env := { Demo.env with
  classes := fun _ => ⟨lit "Box", [⟨lit "items", .required, .vec tInt⟩]⟩
  fresh := fun _ => .obj [.seq [.prim (.int 5)]]
  ctor := fun _ => .obj [.seq [.prim (.int 5)]] }

/-- **C27, negation.** Elements that are already there in a new object are kept. -/
theorem C27_default_contents : ∃ v doc w, HasTy boxEnv heap v (.cls 0) ∧ writeToString boxEnv (.cls 0) v [] = some (true, events doc) ∧
    parseThrow boxEnv host (.cls 0) (.document doc) 0 = .returned w ∧ w ≠ v := by
  refine ⟨.obj [.seq [.prim (.int 1)]], .obj [(lit "items", .arr [.num (.int 1)])], .obj [.seq [.prim (.int 5), .prim (.int 1)]], ?_, rfl, rfl, by simp⟩
  simp [HasTy, MembersTy, AllTy, PrimTy, Env.members, boxEnv]
  decide

/-- **C27, negation.** When an object is used twice the text has a reference, which the parser does not know. -/
theorem C27_shared_twice : ∃ v doc, HasTy Demo.env heap v (.vec (.sptr (.cls 1))) ∧ writeToString Demo.env (.vec (.sptr (.cls 1))) v [] = some (true, events doc) ∧
    ∀ target n, parseBool Demo.env host (.vec (.sptr (.cls 1))) (.document doc) target n = .rejected := by
  refine ⟨.seq [.sptr 200 item8, .sptr 200 item8], .arr [.obj [(lit "id", .num (.int 8)), (lit "count", .num (.int 0))], .obj [(lit "$ref", .str (lit "/0"))]],
    ?_, rfl, fun target n => ?_⟩
  · have := item_ty heap
    simp only [HasTy, AllTy, this, and_true]
    exact ⟨rfl, rfl⟩
  · rw [C42_document_partial Demo.env host streamed streamable_classes tables_built 100 host_roomy (.vec (.sptr (.cls 1))) ⟨rfl, .inr (.inl rfl)⟩ _
      (by decide +kernel) (by decide +kernel)]
    rfl

/-- A tree of `m` levels below the root, each with one child. -/
def tower : Nat → Val
  | 0 => .obj [.prim (.int 0), .seq []]
  | m + 1 => .obj [.prim (.int 0), .seq [tower m]]

/-- The document for it. -/
def towerDoc : Nat → Json
  | 0 => .obj [(lit "value", .num (.int 0)), (lit "children", .arr [])]
  | m + 1 => .obj [(lit "value", .num (.int 0)), (lit "children", .arr [towerDoc m])]

theorem tower_ty (H : Heap) (m : Nat) : HasTy Demo.env H (tower m) (.cls 4) ∧ Parsable Demo.env (tower m) (.cls 4) ∧ finite (tower m) = true := by
  have hm : Demo.env.members 4 = tree.members := rfl
  induction m with
  | zero =>
    simp [tower, HasTy, hm, tree, MembersTy, AllTy, PrimTy, Parsable, ParsableMembers, ParsableAll, LeafGood, finite, finiteAll]
    decide
  | succ m ih =>
    simp [tower, HasTy, hm, tree, MembersTy, AllTy, PrimTy, Parsable, ParsableMembers, ParsableAll, LeafGood, finite, finiteAll, ih]
    decide

theorem tower_written (m : Nat) : ∀ segs σ, wr Demo.env (tower m) (.cls 4) segs σ = .done σ true (events (towerDoc m)) := by
  have hm : Demo.env.members 4 = tree.members := rfl
  induction m with
  | zero => intro segs σ; rfl
  | succ m ih =>
    intro segs σ
    simp [tower, wr, hm, tree, wrMembers, wrItems, serPrim, ih, events, eventsItems, eventsMembers, towerDoc, WRes.before, WRes.close]

theorem tower_throws (host : Host) (m : Nat) : ∀ (K : List HClass) (vs : List Val) (n : Nat), 128 ≤ K.length + 2 * m →
    pval Demo.env host (towerDoc m) K (.objStart 4 vs) n = .threw := by
  have hfull : ∀ (K : List HClass) (c : HClass), 128 ≤ K.length → room host K c = false := by
    intro K c hK
    simp [room]; omega
  induction m with
  | zero =>
    intro K vs n hK
    rw [towerDoc, pval, objectFn, hfull K _ (by omega)]
    rfl
  | succ m ih =>
    intro K vs n hK
    rw [towerDoc, pval, objectFn]
    by_cases h1 : room host K (.object 4) = true
    · rw [if_pos h1]
      have hsel0 : selectMember Demo.env host 4 (lit "value") = .member 0 := rfl
      have hmem0 : (Demo.env.members 4)[0]? = some ⟨lit "value", .required, tInt⟩ := rfl
      have hsel : selectMember Demo.env host 4 (lit "children") = .member 1 := rfl
      have hmem : (Demo.env.members 4)[1]? = some ⟨lit "children", .required, .vec (.cls 4)⟩ := rfl
      have hk : (Kind.required = Kind.optional) ↔ False := by decide
      have hleaf : leafParse Demo.env (.int int32) (.num (.int 0)) = .ok (.int 0) := rfl
      have hstay : Prim.stays (.int int32) = false := rfl
      simp only [pfields, loopObj, hsel, hsel0, hmem0, hmem, hk, if_false, withChild]
      by_cases h0 : room host (.object 4 :: K) (.parser tInt) = true
      · rw [if_pos h0]
        simp only [openP, pval, scalar, hleaf, hstay, arrayFn, Bool.false_eq_true, if_false]
        by_cases h2 : room host (.object 4 :: K) (.parser (.vec (.cls 4))) = true
        · rw [if_pos h2]
          by_cases h3 : room host (.object 4 :: K) (.vecItems (.cls 4)) = true
          · rw [if_pos h3]
            have hd : direct (.cls 4) = none := rfl
            have hfst : first (towerDoc m) = .startObj := by cases m <;> rfl
            have htok : isToken (.cls 4) (first (towerDoc m)) = true := by rw [hfst]; rfl
            simp only [pitems, loopVec, hd, htok, if_true, withChild]
            by_cases h4 : room host (.vecItems (.cls 4) :: .object 4 :: K) (.parser (.cls 4)) = true
            · rw [if_pos h4]
              have hne : Demo.env.members 4 ≠ [] := by simp [Env.members, Demo.env, tree]
              simp only [openP, if_neg hne]
              rw [ih (.vecItems (.cls 4) :: .object 4 :: K) _ n (by simp only [List.length_cons]; omega)]
              rfl
            · rw [if_neg h4]; rfl
          · rw [if_neg h3]; rfl
        · rw [if_neg h2]; rfl
      · rw [if_neg h0]; rfl
    · rw [if_neg h1]

/-- **C27, negation.** `Tree` with 65 or more levels: it is written, but on every host parsing the text throws. -/
theorem C27_depth (m : Nat) (hm : 64 ≤ m) (before : List Event) (host : Host) (target : Val) (n : Nat) :
    writeToString Demo.env (.cls 4) (tower m) before = some (true, events (towerDoc m)) ∧
      parseBool Demo.env host (.cls 4) (.document (towerDoc m)) target n = .threw := by
  refine ⟨by rw [writeToString, tower_written m], ?_⟩
  rw [parseBool_document]
  have hne : Demo.env.members 4 ≠ [] := by simp [Env.members, Demo.env, tree]
  simp only [openP, if_neg hne]
  rw [tower_throws host m [] _ n (by simp; omega)]
  simp

example : HasTy Demo.env heap (tower 64) (.cls 4) ∧ finite (tower 64) = true := ⟨(tower_ty heap 64).1, (tower_ty heap 64).2.2⟩

end Verif.Props
