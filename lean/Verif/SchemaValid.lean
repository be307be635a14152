import Verif.SchemaSound
import Verif.Base64Dec

/-!
# Written documents satisfy generated schemas
-/

namespace Verif.Core
open Verif.Numeric Verif.EnumConv JsonSchema

/-! ## Parts of shown values -/

/-- No object is replaced by a reference. -/
def NoRefs (tr : List Occ) : Prop := ∀ a p, Occ.ref a p ∉ tr

theorem NoRefs.left {tr tr' : List Occ} (h : NoRefs (tr ++ tr')) : NoRefs tr := fun a p hm => h a p (by simp [hm])
theorem NoRefs.right {tr tr' : List Occ} (h : NoRefs (tr ++ tr')) : NoRefs tr' := fun a p hm => h a p (by simp [hm])

/-- A value and the document written for it, without references. -/
def Pure (env : Env) (H : Heap) (v : Val) (t : Ty) (j : Json) : Prop := HasTy env H v t ∧ ∃ pos tr, Shows env v t pos j tr ∧ NoRefs tr

theorem pure_items {env : Env} {H : Heap} : ∀ {vs : List Val} {ts : List Ty} {pos : List Nat} {k : Nat} {js : List Json} {tr : List Occ},
    ShowsItems env vs ts pos k js tr → NoRefs tr → HasTys env H vs ts → js.length = ts.length ∧
      ∀ (i : Nat) t j, ts[i]? = some t → js[i]? = some j → ∃ v, vs[i]? = some v ∧ Pure env H v t j := by
  intro vs
  induction vs with
  | nil =>
    intro ts pos k js tr h _ _
    cases h
    simp
  | cons v vs ih =>
    intro ts pos k js tr h hr ht
    cases h with
    | cons h1 h2 =>
      simp only [HasTys] at ht
      obtain ⟨e1, e2⟩ := ih h2 hr.right ht.2
      refine ⟨by simp [e1], fun i t j hi hj => ?_⟩
      cases i with
      | zero =>
        simp only [List.getElem?_cons_zero, Option.some.injEq] at hi hj
        subst hi hj
        exact ⟨v, rfl, ht.1, _, _, h1, hr.left⟩
      | succ i =>
        obtain ⟨w, e3, e4⟩ := e2 i t j (by simpa using hi) (by simpa using hj)
        exact ⟨w, by simpa using e3, e4⟩

theorem pure_vals {env : Env} {H : Heap} {t : Ty} : ∀ {kvs : List (Str × Val)} {pos : List Nat} {k : Nat} {js : List (Str × Json)} {tr : List Occ},
    ShowsVals env kvs t pos k js tr → NoRefs tr → (∀ p ∈ kvs, HasTy env H p.2 t) → ∀ q ∈ js, ∃ v, Pure env H v t q.2 := by
  intro kvs
  induction kvs with
  | nil =>
    intro pos k js tr h _ _
    cases h
    simp
  | cons p kvs ih =>
    intro pos k js tr h hr ht q hq
    cases h with
    | cons h1 h2 =>
      rcases List.mem_cons.1 hq with rfl | hq
      · exact ⟨_, ht (_, _) List.mem_cons_self, _, _, h1, hr.left⟩
      · exact ih h2 hr.right (fun p hp => ht p (by simp [hp])) q hq

theorem pure_members {env : Env} {H : Heap} : ∀ {vs : List Val} {ms : List Member} {pos : List Nat} {k : Nat} {js : List (Str × Json)} {tr : List Occ},
    ShowsMembers env vs ms pos k js tr → NoRefs tr → MembersTy env H vs ms →
      (∀ q ∈ js, ∃ m ∈ ms, m.name = q.1 ∧ ∃ v, Pure env H v m.ty q.2) ∧ ∀ m ∈ ms, m.kind ≠ .optional → m.name ∈ js.map (·.1) := by
  intro vs
  induction vs with
  | nil =>
    intro ms pos k js tr h _ _
    cases h
    simp
  | cons v vs ih =>
    intro ms pos k js tr h hr ht
    cases h with
    | @skip _ m ms _ _ js tr hk h1 =>
      rw [MembersTy_cons] at ht
      obtain ⟨e1, e2⟩ := ih h1 hr ht.2
      refine ⟨fun q hq => ?_, fun m' hm' hk' => ?_⟩
      · obtain ⟨m', h3, h4⟩ := e1 q hq
        exact ⟨m', by simp [h3], h4⟩
      · rcases List.mem_cons.1 hm' with rfl | hm'
        · exact absurd hk hk'
        · exact e2 m' hm' hk'
    | @engaged v _ m ms _ _ j js tr tr' hk h1 h2 =>
      rw [MembersTy_cons] at ht
      obtain ⟨e1, e2⟩ := ih h2 hr.right ht.2
      have hv : HasTy env H v m.ty := by
        have := ht.1
        rw [hk] at this
        exact this
      refine ⟨fun q hq => ?_, fun m' hm' hk' => ?_⟩
      · rcases List.mem_cons.1 hq with rfl | hq
        · exact ⟨m, by simp, rfl, v, hv, _, _, h1, hr.left⟩
        · obtain ⟨m', h3, h4⟩ := e1 q hq
          exact ⟨m', by simp [h3], h4⟩
      · rcases List.mem_cons.1 hm' with rfl | hm'
        · exact absurd hk hk'
        · simp [e2 m' hm' hk']
    | @plain _ _ m ms _ _ j js tr tr' hk h1 h2 =>
      rw [MembersTy_cons] at ht
      obtain ⟨e1, e2⟩ := ih h2 hr.right ht.2
      have hv : HasTy env H v m.ty := by
        have := ht.1
        cases hm : m.kind with
        | optional => exact absurd hm hk
        | _ => rw [hm] at this; exact this
      refine ⟨fun q hq => ?_, fun m' hm' hk' => ?_⟩
      · rcases List.mem_cons.1 hq with rfl | hq
        · exact ⟨m, by simp, rfl, v, hv, _, _, h1, hr.left⟩
        · obtain ⟨m', h3, h4⟩ := e1 q hq
          exact ⟨m', by simp [h3], h4⟩
      · rcases List.mem_cons.1 hm' with rfl | hm'
        · simp
        · simp [e2 m' hm' hk']

/-! ## Types with exact schemas -/

/-- Types without components whose written forms differ when the values differ. -/
def Prim.separate : Prim → Bool
  | .null => true
  | .bool => true
  | .int _ => true
  | .str => true
  | .bytes => true
  | _ => false

mutual
/-- No enumerations, no dictionaries; sets of the types of `Prim.separate`; variants whose alternatives are written
as different kinds of JSON values; classes of `G`. -/
def Describable (G : Nat → Prop) : Ty → Prop
  | .prim (.enumInt _) => False
  | .prim (.enumStr _) => False
  | .prim _ => True
  | .vec t => Describable G t
  | .arr _ t => Describable G t
  | .set (.prim p) => p.separate = true
  | .set _ => False
  | .map _ t => Describable G t
  | .dict _ => False
  | .tuple ts => DescribableAll G ts
  | .variant ts => DescribableAll G ts ∧ ts.Pairwise fun t t' => ∀ k ∈ t.kinds, k ∉ t'.kinds
  | .cls c => G c
  | .uptr t => Describable G t
  | .sptr t => Describable G t

/-- `Describable` for lists. -/
def DescribableAll (G : Nat → Prop) : List Ty → Prop
  | [] => True
  | t :: ts => Describable G t ∧ DescribableAll G ts
end

/-- A set of classes with describable members and pairwise different member names. -/
def DescribableClasses (env : Env) (G : Nat → Prop) : Prop :=
  ∀ c, G c → (∀ m ∈ env.members c, Describable G m.ty) ∧ ((env.members c).map (·.name)).Nodup

theorem describableAll_iff (G : Nat → Prop) (ts : List Ty) : DescribableAll G ts ↔ ∀ t ∈ ts, Describable G t := by
  induction ts with
  | nil => simp [DescribableAll]
  | cons t ts ih => simp [DescribableAll, ih]

theorem serPrim_kind (env : Env) (k : Prim) (p : PVal) (j : Json) (h : serPrim env k p = .ok j) (hk : ∀ t, k ≠ .enumInt t) : j.kind ∈ k.kinds := by
  cases k <;> cases p <;> first
    | exact absurd rfl (hk _)
    | (injection h; done)
    | (injection h with h1; subst h1; exact List.mem_singleton.2 rfl)
    | (rw [serPrim_flt] at h; split at h <;> cases h; exact List.mem_singleton.2 rfl)
    | (rw [serPrim_date] at h; split at h <;> cases h; exact List.mem_singleton.2 rfl)

/-- The kind of the document is one of the kinds of the type. -/
theorem pure_kind {env : Env} {H : Heap} {G : Nat → Prop} : ∀ v t j, Describable G t → Pure env H v t j → j.kind ∈ t.kinds := by
  intro v
  induction v using Val.strong with
  | h v ih =>
    rintro t j hd ⟨ht, pos, tr, hs, hr⟩
    cases hs with
    | @prim p k _ _ h =>
      rw [Ty.kinds]
      refine serPrim_kind env k p _ h ?_
      rintro t rfl
      simp only [Describable] at hd
    | vec _ => simp [Ty.kinds, Json.kind]
    | arr _ => simp [Ty.kinds, Json.kind]
    | tuple _ => simp [Ty.kinds, Json.kind]
    | set _ => simp [Ty.kinds, Json.kind]
    | map _ _ _ => simp [Ty.kinds, Json.kind]
    | dict _ => exact absurd hd (by simp [Describable])
    | @alt i v ts t _ _ _ hi h =>
      simp only [Describable] at hd
      simp only [HasTy] at ht
      obtain ⟨t', h1, h2⟩ := ht
      rw [hi] at h1
      cases h1
      rw [Ty.kinds, mem_kindsAll]
      have hm : t ∈ ts := List.mem_of_getElem? hi
      exact ⟨t, hm, ih v (by simp; omega) t j ((describableAll_iff G ts).1 hd.1 t hm) ⟨h2, _, _, h, hr⟩⟩
    | cls _ => simp [Ty.kinds, Json.kind]
    | @uptr v t _ _ _ h =>
      simp only [Describable] at hd
      simp only [HasTy] at ht
      rw [Ty.kinds]
      exact ih v (by simp) t j hd ⟨ht, _, _, h, hr⟩
    | @full a v t _ _ _ h =>
      simp only [Describable] at hd
      simp only [HasTy] at ht
      rw [Ty.kinds]
      exact ih v (by simp; omega) t j hd ⟨ht.2, _, _, h, hr.left⟩
    | ref => exact absurd List.mem_cons_self (hr _ _)

/-! ## Leaves -/

theorem numLe_int (a b : Int) : numLe (.int a) (.int b) = decide (a ≤ b) := by simp [numLe, fraction]

theorem distinct_of_pairwise (js : List Json) (h : js.Pairwise fun a b => same a b = false) : distinct js = true := by
  induction js with
  | nil => rfl
  | cons j js ih =>
    rw [List.pairwise_cons] at h
    simp only [distinct, Bool.and_eq_true, List.all_eq_true, Bool.not_eq_true']
    exact ⟨h.1, ih h.2⟩

theorem separate_same (env : Env) (p : Prim) (hp : p.separate = true) (a b : PVal) (ja jb : Json) (ha : serPrim env p a = .ok ja) (hb : serPrim env p b = .ok jb)
    (hne : a ≠ b) : same ja jb = false := by
  cases p with
  | null =>
    cases a <;> first | (injection ha; done) | injection ha with ha
    cases b <;> first | (injection hb; done) | injection hb with hb
    subst ha hb
    exact absurd rfl hne
  | bool =>
    cases a <;> first | (injection ha; done) | injection ha with ha
    cases b <;> first | (injection hb; done) | injection hb with hb
    subst ha hb
    simp only [same, beq_eq_false_iff_ne]
    rintro rfl
    exact hne rfl
  | int t =>
    cases a <;> first | (injection ha; done) | injection ha with ha
    cases b <;> first | (injection hb; done) | injection hb with hb
    subst ha hb
    simp only [same, numLe_int, Bool.and_eq_false_iff, decide_eq_false_iff_not]
    rename_i x y
    have : x ≠ y := fun h => hne (by rw [h])
    omega
  | str =>
    cases a <;> first | (injection ha; done) | injection ha with ha
    cases b <;> first | (injection hb; done) | injection hb with hb
    subst ha hb
    simp only [same, beq_eq_false_iff_ne]
    rintro rfl
    exact hne rfl
  | bytes =>
    cases a <;> first | (injection ha; done) | injection ha with ha
    cases b <;> first | (injection hb; done) | injection hb with hb
    subst ha hb
    simp only [same, beq_eq_false_iff_ne]
    intro h
    have h1 := congrArg Base64.decode h
    rw [Base64.encode_eq_encodeRec, Base64.encode_eq_encodeRec, Base64.decode_encodeRec, Base64.decode_encodeRec] at h1
    exact hne (by simpa using h1)
  | _ => cases hp

/-! ## The schemas of the forms of types -/

theorem fundamental_accepts (root : Json) (type : Str) (f e : Option Str) (doc : Json) (h : typeOk type doc = true) :
    Verdict root (Schema.fundamental type f e).json doc true := by
  refine .step 0 fun fuel _ => ?_
  rw [Schema.json, Schema.fields, validate_true]
  cases f <;> cases e <;>
    refine ⟨rfl, congrArg some h, rfl, rfl, rfl, rfl, rfl, rfl, rfl, rfl, ?_, rfl, rfl, rfl⟩ <;>
    (cases doc <;> first | rfl | (refine (all3_true _).2 fun x hx => ?_; obtain ⟨q, -, rfl⟩ := List.mem_map.1 hx; rfl))

theorem integer_accepts (root : Json) (lo hi v : Int) (h : lo ≤ v ∧ v ≤ hi) (kw : List (Str × Json))
    (hk : kw = [(lit "type", .str (lit "integer")), (lit "minimum", .num (.int lo)), (lit "maximum", .num (.int hi))]) :
    Verdict root (.obj kw) (.num (.int v)) true := by
  subst hk
  refine .step 0 fun fuel _ => ?_
  rw [validate_true]
  refine ⟨rfl, ?_, rfl, ?_, ?_, rfl, rfl, rfl, rfl, rfl, rfl, rfl, rfl, rfl⟩
  · have : checkType [(lit "type", .str (lit "integer")), (lit "minimum", .num (.int lo)), (lit "maximum", .num (.int hi))] (.num (.int v)) =
        some (isInteger (.int v)) := rfl
    rw [this]
    simp [isInteger, fraction]
  · have : checkMin [(lit "type", .str (lit "integer")), (lit "minimum", .num (.int lo)), (lit "maximum", .num (.int hi))] (.num (.int v)) =
        some (numLe (.int lo) (.int v)) := rfl
    rw [this, numLe_int]
    simp [h.1]
  · have : checkMax [(lit "type", .str (lit "integer")), (lit "minimum", .num (.int lo)), (lit "maximum", .num (.int hi))] (.num (.int v)) =
        some (numLe (.int v) (.int hi)) := rfl
    rw [this, numLe_int]
    simp [h.2]

theorem items_accepts (root : Json) (s : Schema) (unique : Bool) (size : Option Nat) (js : List Json) (h : ∀ j ∈ js, Verdict root s.json j true)
    (hu : unique = true → distinct js = true) (hs : ∀ n, size = some n → js.length = n) : Verdict root (Schema.items s unique size).json (.arr js) true := by
  obtain ⟨n, hn⟩ := verdicts root (js.map fun j => (s.json, j, true)) (by
    intro p hp
    obtain ⟨j, hj, rfl⟩ := List.mem_map.1 hp
    exact h j hj)
  refine .step n fun fuel hf => ?_
  rw [Schema.json, Schema.fields, validate_true]
  have hi : all3 (js.map (validate root fuel s.json)) = some true := by
    refine (all3_true _).2 fun x hx => ?_
    obtain ⟨j, hj, rfl⟩ := List.mem_map.1 hx
    exact hn fuel hf (s.json, j, true) (List.mem_map.2 ⟨j, hj, rfl⟩)
  have hle : ∀ n, size = some n → some (numLe (.int n) (.int js.length)) = some true ∧ some (numLe (.int js.length) (.int n)) = some true := by
    intro n hn
    rw [numLe_int, numLe_int, hs n hn]
    simp
  cases unique <;> cases size with
  | none => first
      | exact ⟨rfl, rfl, rfl, rfl, rfl, rfl, hi, rfl, rfl, rfl, rfl, rfl, rfl, rfl⟩
      | exact ⟨rfl, rfl, rfl, rfl, rfl, rfl, hi, congrArg some (hu rfl), rfl, rfl, rfl, rfl, rfl, rfl⟩
  | some k => first
      | exact ⟨rfl, rfl, rfl, rfl, rfl, rfl, hi, rfl, (hle k rfl).1, (hle k rfl).2, rfl, rfl, rfl, rfl⟩
      | exact ⟨rfl, rfl, rfl, rfl, rfl, rfl, hi, congrArg some (hu rfl), (hle k rfl).1, (hle k rfl).2, rfl, rfl, rfl, rfl⟩

theorem tuple_accepts (root : Json) (ss : List Schema) (js : List Json) (hl : js.length = ss.length)
    (h : ∀ (i : Nat) s j, ss[i]? = some s → js[i]? = some j → Verdict root s.json j true) : Verdict root (Schema.tuple ss).json (.arr js) true := by
  obtain ⟨n, hn⟩ := verdicts root ((ss.zip js).map fun p => (p.1.json, p.2, true)) (by
    intro p hp
    obtain ⟨q, hq, rfl⟩ := List.mem_map.1 hp
    obtain ⟨i, hi, he⟩ := List.getElem_of_mem hq
    simp only [List.length_zip] at hi
    rw [List.getElem_zip] at he
    subst he
    exact h i _ _ (List.getElem?_eq_getElem (by omega)) (List.getElem?_eq_getElem (by omega)))
  refine .step n fun fuel hf => ?_
  rw [Schema.json, Schema.fields, validate_true]
  have hi : all3 (List.zipWith (validate root fuel) (Schema.jsons ss) js) = some true := by
    refine (all3_true _).2 fun x hx => ?_
    rw [jsons_eq, List.zipWith_map_left] at hx
    obtain ⟨i, hi, rfl⟩ := List.getElem_of_mem hx
    rw [List.getElem_zipWith]
    simp only [List.length_zipWith] at hi
    refine hn fuel hf (_, _, true) (List.mem_map.2 ⟨(ss[i]'(by omega), js[i]'(by omega)), ?_, rfl⟩)
    rw [List.mem_iff_getElem]
    exact ⟨i, by simp only [List.length_zip]; omega, List.getElem_zip⟩
  have hle : some (numLe (.int ss.length) (.int js.length)) = some true ∧ some (numLe (.int js.length) (.int ss.length)) = some true := by
    rw [numLe_int, numLe_int, hl]
    simp
  exact ⟨rfl, rfl, rfl, rfl, rfl, hi, rfl, rfl, hle.1, hle.2, rfl, rfl, rfl, rfl⟩

theorem mapping_accepts (root : Json) (s : Schema) (ms : List (Str × Json)) (h : ∀ q ∈ ms, Verdict root s.json q.2 true) :
    Verdict root (Schema.mapping s).json (.obj ms) true := by
  obtain ⟨n, hn⟩ := verdicts root (ms.map fun q => (s.json, q.2, true)) (by
    intro p hp
    obtain ⟨q, hq, rfl⟩ := List.mem_map.1 hp
    exact h q hq)
  refine .step n fun fuel hf => ?_
  rw [Schema.json, Schema.fields, validate_true]
  refine ⟨rfl, rfl, rfl, rfl, rfl, rfl, rfl, rfl, rfl, rfl, ?_, ?_, rfl, rfl⟩
  · refine (all3_true _).2 fun x hx => ?_
    obtain ⟨q, -, rfl⟩ := List.mem_map.1 hx
    rfl
  · refine (all3_true _).2 fun x hx => ?_
    obtain ⟨q, hq, rfl⟩ := List.mem_map.1 hx
    exact hn fuel hf (s.json, q.2, true) (List.mem_map.2 ⟨q, hq, rfl⟩)

theorem object_accepts (root : Json) (ps : List (Str × Schema)) (rs : List Str) (ms : List (Str × Json))
    (h : ∀ q ∈ ms, ∃ s, ps.lookup q.1 = some s ∧ Verdict root s.json q.2 true) (hr : ∀ k ∈ rs, k ∈ ms.map (·.1)) :
    Verdict root (Schema.object ps rs).json (.obj ms) true := by
  obtain ⟨n, hn⟩ := verdicts root (ms.map fun q => (((ps.lookup q.1).getD (.ref [])).json, q.2, true)) (by
    intro p hp
    obtain ⟨q, hq, rfl⟩ := List.mem_map.1 hp
    obtain ⟨s, h1, h2⟩ := h q hq
    simpa [h1] using h2)
  refine .step n fun fuel hf => ?_
  rw [Schema.json, Schema.fields, validate_true]
  refine ⟨rfl, rfl, rfl, rfl, rfl, rfl, rfl, rfl, rfl, rfl, ?_, ?_, ?_, rfl⟩
  · refine (all3_true _).2 fun x hx => ?_
    obtain ⟨q, hq, rfl⟩ := List.mem_map.1 hx
    obtain ⟨s, h1, -⟩ := h q hq
    have h2 : (Schema.entries ps).lookup q.1 = some s.json := by rw [entries_lookup, h1]; rfl
    have h3 := hn fuel hf _ (List.mem_map.2 ⟨q, hq, rfl⟩)
    simp only [h1, Option.getD_some] at h3
    show (match (Schema.entries ps).lookup q.1 with | some s => validate root fuel s q.2 | none => some true) = some true
    rw [h2]
    exact h3
  · refine (all3_true _).2 fun x hx => ?_
    obtain ⟨q, hq, rfl⟩ := List.mem_map.1 hx
    obtain ⟨s, h1, -⟩ := h q hq
    have h2 : (Schema.entries ps).lookup q.1 = some s.json := by rw [entries_lookup, h1]; rfl
    show (match (Schema.entries ps).lookup q.1 with | some _ => some true | none => validate root fuel (.bool false) q.2) = some true
    rw [h2]
  · show some ((rs.map Json.str).all fun r => match r with | .str k => (ms.lookup k).isSome | _ => false) = some true
    simp only [List.all_map, Option.some.injEq, List.all_eq_true, Function.comp_apply]
    intro k hk
    obtain ⟨q, hq, he⟩ := List.mem_map.1 (hr k hk)
    cases hl : ms.lookup k with
    | some _ => rfl
    | none =>
      rw [List.lookup_eq_none_iff] at hl
      have := hl q hq
      simp [he] at this

theorem oneOf_accepts (root : Json) (ss : List Schema) (doc : Json) (i : Nat) (s : Schema) (hi : ss[i]? = some s) (h : Verdict root s.json doc true)
    (ho : ∀ (k : Nat) s', ss[k]? = some s' → k ≠ i → Verdict root s'.json doc false) : Verdict root (Schema.oneOf ss).json doc true := by
  obtain ⟨n1, hn1⟩ := h
  obtain ⟨n2, hn2⟩ := verdicts root ((List.range ss.length).filterMap fun k => if k = i then none else ss[k]?.map fun s => (s.json, doc, false)) (by
    intro p hp
    obtain ⟨k, hk, he⟩ := List.mem_filterMap.1 hp
    split at he
    · cases he
    · rename_i hne
      obtain ⟨s', h1, rfl⟩ := Option.map_eq_some_iff.1 he
      exact ho k s' h1 hne)
  refine .step (max n1 n2) fun fuel hf => ?_
  rw [Schema.json, Schema.fields, validate_true]
  refine ⟨rfl, rfl, rfl, rfl, rfl, ?_, ?_, ?_, ?_, ?_, ?_, ?_, ?_, ?_⟩
  · cases doc <;> rfl
  · cases doc <;> rfl
  · cases doc <;> rfl
  · cases doc <;> rfl
  · cases doc <;> rfl
  · cases doc <;> first | rfl | (refine (all3_true _).2 fun x hx => ?_; obtain ⟨q, -, rfl⟩ := List.mem_map.1 hx; rfl)
  · cases doc <;> rfl
  · cases doc <;> rfl
  · have : checkOneOf (validate root fuel) [(lit "oneOf", Json.arr (Schema.jsons ss))] doc = (count3 ((Schema.jsons ss).map fun s => validate root fuel s doc)).map (· == 1) := rfl
    rw [this, jsons_eq, List.map_map, count3_one _ i]
    · rfl
    · simp only [List.getElem?_map, hi, Option.map_some, Function.comp_apply, Option.some.injEq]
      exact hn1 fuel (by omega)
    · intro k x hk hne
      rw [List.getElem?_map] at hk
      obtain ⟨s', h1, rfl⟩ := Option.map_eq_some_iff.1 hk
      refine hn2 fuel (by omega) (s'.json, doc, false) (List.mem_filterMap.2 ⟨k, ?_, ?_⟩)
      · rw [List.mem_range]
        exact (List.getElem?_eq_some_iff.1 h1).1
      · rw [if_neg hne, h1]
        rfl

theorem ref_accepts {env : Env} {D : Defs} (hp : ∀ c, PlainName (className env c)) (version : Option Str) (s0 : Schema) (c : Nat) (s : Schema) (doc : Json)
    (hl : D.lookup (className env c) = some s) (h : Verdict (schemaDoc version D s0) s.json doc true) :
    Verdict (schemaDoc version D s0) (Schema.ref (defRef (className env c))).json doc true := by
  obtain ⟨n, hn⟩ := h
  refine .step n fun fuel hf => ?_
  rw [Schema.json, Schema.fields, validate_true]
  refine ⟨?_, rfl, rfl, rfl, rfl, ?_, ?_, ?_, ?_, ?_, ?_, ?_, ?_, rfl⟩
  · have h1 : List.lookup (lit "$ref") [(lit "$ref", Json.str (defRef (className env c)))] = some (.str (defRef (className env c))) := rfl
    rw [checkRef, h1]
    simp only [Desc.resolve version s0 hp hl]
    exact hn fuel hf
  · cases doc <;> rfl
  · cases doc <;> rfl
  · cases doc <;> rfl
  · cases doc <;> rfl
  · cases doc <;> rfl
  · cases doc <;> first | rfl | (refine (all3_true _).2 fun x hx => ?_; obtain ⟨q, -, rfl⟩ := List.mem_map.1 hx; rfl)
  · cases doc <;> rfl
  · cases doc <;> rfl

theorem prim_accepts (env : Env) (root : Json) (k : Prim) (p : PVal) (j : Json) (h : serPrim env k p = .ok j) (ht : PrimTy env p k)
    (h1 : ∀ t, k ≠ .enumInt t) (h2 : ∀ t, k ≠ .enumStr t) : Verdict root (primSchema k).json j true := by
  have hk := serPrim_kind env k p j h h1
  cases k with
  | null => cases j <;> first | exact fundamental_accepts _ _ _ _ _ rfl | exact absurd hk (by simp [Prim.kinds, Json.kind])
  | bool => cases j <;> first | exact fundamental_accepts _ _ _ _ _ rfl | exact absurd hk (by simp [Prim.kinds, Json.kind])
  | flt t => cases j <;> first | exact fundamental_accepts _ _ _ _ _ rfl | exact absurd hk (by simp [Prim.kinds, Json.kind])
  | str => cases j <;> first | exact fundamental_accepts _ _ _ _ _ rfl | exact absurd hk (by simp [Prim.kinds, Json.kind])
  | bytes => cases j <;> first | exact fundamental_accepts _ _ _ _ _ rfl | exact absurd hk (by simp [Prim.kinds, Json.kind])
  | time => cases j <;> first | exact fundamental_accepts _ _ _ _ _ rfl | exact absurd hk (by simp [Prim.kinds, Json.kind])
  | date => cases j <;> first | exact fundamental_accepts _ _ _ _ _ rfl | exact absurd hk (by simp [Prim.kinds, Json.kind])
  | enumInt t => exact absurd rfl (h1 t)
  | enumStr t => exact absurd rfl (h2 t)
  | int t =>
    cases p <;> first | (injection h; done) | injection h with h
    rename_i v
    subst h
    have hr : t.InRange v := ht
    rw [primSchema]
    split
    · exact integer_accepts root t.min t.max v hr _ rfl
    · rename_i hs
      refine integer_accepts root 0 t.max v ⟨?_, hr.2⟩ _ rfl
      have := hr.1
      simpa [IntTy.min, hs] using this

/-- **Soundness.** What is written for a value is accepted by the schema of its type. -/
theorem sound {env : Env} {D : Defs} (H : Heap) (G : Nat → Prop) (hG : DescribableClasses env G) (hless : ∀ v, env.less v v = false)
    (hp : ∀ c, PlainName (className env c)) (version : Option Str) (s0 : Schema) {t : Ty} {s : Schema} (hd : Desc env D t s) :
    ∀ v j, Describable G t → Pure env H v t j → Verdict (schemaDoc version D s0) s.json j true := by
  induction hd with
  | prim k =>
    rintro v j hk ⟨ht, pos, tr, hs, hr⟩
    cases hs with
    | @prim p _ _ _ h =>
      simp only [HasTy] at ht
      refine prim_accepts env _ k p j h ht ?_ ?_
      · rintro t rfl; simp only [Describable] at hk
      · rintro t rfl; simp only [Describable] at hk
  | vec t s _ ih =>
    rintro v j hk ⟨ht, pos, tr, hs, hr⟩
    cases hs with
    | @vec vs _ _ js _ h =>
      simp only [HasTy] at ht
      obtain ⟨h1, h2⟩ := pure_items h hr (HasTys_replicate env H vs t ht)
      refine items_accepts _ _ _ _ _ (fun j hj => ?_) (fun h => by cases h) (fun n h => by cases h)
      obtain ⟨i, hi, rfl⟩ := List.getElem_of_mem hj
      obtain ⟨v, -, h3⟩ := h2 i t _ (by rw [List.getElem?_replicate, if_pos (by simpa [h1] using hi)]) (List.getElem?_eq_getElem hi)
      exact ih v _ (by simpa only [Describable] using hk) h3
  | arr n t s _ ih =>
    rintro v j hk ⟨ht, pos, tr, hs, hr⟩
    cases hs with
    | @arr vs _ _ _ js _ h =>
      simp only [HasTy] at ht
      have hts := HasTys_replicate env H vs t ht.2
      rw [ht.1] at hts
      obtain ⟨h1, h2⟩ := pure_items h hr hts
      refine items_accepts _ _ _ _ _ (fun j hj => ?_) (fun h => by cases h) (fun n' h => by cases h; simpa using h1)
      obtain ⟨i, hi, rfl⟩ := List.getElem_of_mem hj
      obtain ⟨v, -, h3⟩ := h2 i t _ (by rw [List.getElem?_replicate, if_pos (by simpa [h1] using hi)]) (List.getElem?_eq_getElem hi)
      exact ih v _ (by simpa only [Describable] using hk) h3
  | set t s hds ih =>
    rintro v j hk ⟨ht, pos, tr, hs, hr⟩
    cases hs with
    | @set vs _ _ js _ h =>
      simp only [HasTy] at ht
      obtain ⟨h1, h2⟩ := pure_items h hr (HasTys_replicate env H vs t ht.1)
      have hp' : ∃ p, t = .prim p ∧ p.separate = true := by
        cases t with
        | prim p => exact ⟨p, rfl, by simpa only [Describable] using hk⟩
        | _ => simp only [Describable] at hk
      obtain ⟨p, rfl, hsep⟩ := hp'
      refine items_accepts _ _ _ _ _ (fun j hj => ?_) (fun _ => ?_) (fun n' h => by cases h)
      · obtain ⟨i, hi, rfl⟩ := List.getElem_of_mem hj
        obtain ⟨v, -, h3⟩ := h2 i _ _ (by rw [List.getElem?_replicate, if_pos (by simpa [h1] using hi)]) (List.getElem?_eq_getElem hi)
        refine ih v _ ?_ h3
        cases p <;> simp only [Describable] <;> cases hsep
      · apply distinct_of_pairwise
        rw [List.pairwise_iff_getElem]
        intro a b ha hb hab
        obtain ⟨va, h3, h3'⟩ := h2 a _ _ (by rw [List.getElem?_replicate, if_pos (by simpa [h1] using ha)]) (List.getElem?_eq_getElem ha)
        obtain ⟨vb, h4, h4'⟩ := h2 b _ _ (by rw [List.getElem?_replicate, if_pos (by simpa [h1] using hb)]) (List.getElem?_eq_getElem hb)
        obtain ⟨ha', rfl⟩ := List.getElem?_eq_some_iff.1 h3
        obtain ⟨hb', rfl⟩ := List.getElem?_eq_some_iff.1 h4
        have hl := (List.pairwise_iff_getElem.1 ht.2) a b ha' hb' hab
        obtain ⟨-, _, _, hsa, -⟩ := h3'
        obtain ⟨-, _, _, hsb, -⟩ := h4'
        generalize vs[a] = wa at *
        generalize vs[b] = wb at *
        cases hsa with
        | prim h5 =>
          cases hsb with
          | prim h6 =>
            refine separate_same env p hsep _ _ _ _ h5 h6 ?_
            rintro rfl
            rw [hless] at hl
            cases hl
  | map o t s _ ih =>
    rintro v j hk ⟨ht, pos, tr, hs, hr⟩
    cases hs with
    | @map kvs kvs' _ _ _ js _ hperm _ h =>
      simp only [HasTy] at ht
      refine mapping_accepts _ _ _ fun q hq => ?_
      obtain ⟨v, h3⟩ := pure_vals h hr (fun p hp => (ValsTy_iff env H kvs t).1 ht.1 p (hperm.mem_iff.1 hp)) q hq
      exact ih v _ (by simpa only [Describable] using hk) h3
  | dict t s _ _ =>
    intro v j hk
    simp only [Describable] at hk
  | tuple ts ss hl _ ih =>
    rintro v j hk ⟨ht, pos, tr, hs, hr⟩
    cases hs with
    | @tuple vs _ _ js _ h =>
      simp only [HasTy] at ht
      obtain ⟨h1, h2⟩ := pure_items h hr ht
      refine tuple_accepts _ _ _ (by omega) fun i s j hi hj => ?_
      have hlt : i < ts.length := by
        have := (List.getElem?_eq_some_iff.1 hi).1
        omega
      obtain ⟨v, -, h3⟩ := h2 i ts[i] j (List.getElem?_eq_getElem hlt) hj
      simp only [Describable] at hk
      exact ih i ts[i] s (List.getElem?_eq_getElem hlt) hi v j ((describableAll_iff G ts).1 hk _ (List.getElem_mem hlt)) h3
  | variant ts ss hl hds ih =>
    rintro v j hk ⟨ht, pos, tr, hs, hr⟩
    cases hs with
    | @alt i v _ t _ _ _ hi h =>
      simp only [HasTy] at ht
      obtain ⟨t', h1, h2⟩ := ht
      rw [hi] at h1
      cases h1
      simp only [Describable] at hk
      obtain ⟨hlt, rfl⟩ := List.getElem?_eq_some_iff.1 hi
      have hdt := (describableAll_iff G ts).1 hk.1 _ (List.getElem_mem hlt)
      have hpure : Pure env H v ts[i] j := ⟨h2, _, _, h, hr⟩
      have hkind := pure_kind v _ j hdt hpure
      have hs' : ss[i]? = some (ss[i]'(by omega)) := List.getElem?_eq_getElem (by omega)
      refine oneOf_accepts _ _ _ i _ hs' (ih i _ _ hi hs' v j hdt hpure) fun k s' hks hne => ?_
      have hkl : k < ts.length := by
        have := (List.getElem?_eq_some_iff.1 hks).1
        omega
      refine rejects hp version s0 (hds k ts[k] s' (List.getElem?_eq_getElem hkl) hks) j fun hmem => ?_
      have hpw := List.pairwise_iff_getElem.1 hk.2
      rcases Nat.lt_or_gt_of_ne hne with hlt' | hlt'
      · exact hpw k i hkl hlt hlt' _ hmem hkind
      · exact hpw i k hlt hkl hlt' _ hkind hmem
  | cls c ps hn hms ih =>
    rintro v j hk ⟨ht, pos, tr, hs, hr⟩
    cases hs with
    | @cls vs _ _ js _ h =>
      simp only [HasTy] at ht
      simp only [Describable] at hk
      obtain ⟨hm, hnd⟩ := hG c hk
      obtain ⟨h1, h2⟩ := pure_members h hr ht
      refine object_accepts _ _ _ _ (fun q hq => ?_) (fun k hk' => ?_)
      · obtain ⟨m, hmem, hname, v, hpure⟩ := h1 q hq
        obtain ⟨i, hi, rfl⟩ := List.getElem_of_mem hmem
        have hlen : ps.length = (env.members c).length := by simpa using congrArg List.length hn
        have hpi : (ps[i]'(by omega)).1 = q.1 := by
          have := congrArg (fun l => l[i]?) hn
          simp only [List.getElem?_map, List.getElem?_eq_getElem hi, List.getElem?_eq_getElem (show i < ps.length by omega), Option.map_some, Option.some.injEq] at this
          rw [this, hname]
        refine ⟨(ps[i]'(by omega)).2, ?_, ih i _ _ (List.getElem?_eq_getElem hi) (List.getElem?_eq_getElem (by omega)) v _ (hm _ hmem) hpure⟩
        rw [← hpi]
        exact lookup_of_mem (by rw [hn]; exact hnd) (List.getElem_mem _)
      · obtain ⟨m, h3, rfl⟩ := List.mem_map.1 hk'
        rw [List.mem_filter] at h3
        exact h2 m h3.1 (by simpa using h3.2)
  | ref c s hl _ ih =>
    intro v j hk hpure
    exact ref_accepts hp version s0 c s j hl (ih v j hk hpure)
  | uptr t s _ ih =>
    rintro v j hk ⟨ht, pos, tr, hs, hr⟩
    cases hs with
    | @uptr v _ _ _ _ h =>
      simp only [HasTy] at ht
      exact ih v j (by simpa only [Describable] using hk) ⟨ht, _, _, h, hr⟩
  | sptr t s _ ih =>
    rintro v j hk ⟨ht, pos, tr, hs, hr⟩
    cases hs with
    | @full a v _ _ _ _ h =>
      simp only [HasTy] at ht
      exact ih v j (by simpa only [Describable] using hk) ⟨ht.2, _, _, h, hr.left⟩
    | ref => exact absurd List.mem_cons_self (hr _ _)

/-! ## Objects that are used once -/

/-- The address of an occurrence. -/
def Occ.addr : Occ → Nat
  | .full a _ => a
  | .ref a _ => a

theorem shows_count {env : Env} (a : Nat) : ∀ v t pos j tr, Shows env v t pos j tr → (tr.map Occ.addr).count a ≤ (addrs v).count a := by
  intro v
  induction v using Val.strong with
  | h v ih =>
    have items : ∀ (vs : List Val), (∀ w ∈ vs, sizeOf w < sizeOf v) → ∀ ts pos k js tr, ShowsItems env vs ts pos k js tr →
        (tr.map Occ.addr).count a ≤ (addrsAll vs).count a := by
      intro vs
      induction vs with
      | nil => intro _ ts pos k js tr h; cases h; simp
      | cons w vs ih' =>
        intro hsz ts pos k js tr h
        cases h with
        | cons h1 h2 =>
          have := ih w (hsz w (by simp)) _ _ _ _ h1
          have := ih' (fun w hw => hsz w (by simp [hw])) _ _ _ _ _ h2
          simp only [addrsAll, List.map_append, List.count_append]
          omega
    have vals : ∀ (kvs : List (Str × Val)), (∀ p ∈ kvs, sizeOf p.2 < sizeOf v) → ∀ t pos k js tr, ShowsVals env kvs t pos k js tr →
        (tr.map Occ.addr).count a ≤ (addrsVals kvs).count a := by
      intro kvs
      induction kvs with
      | nil => intro _ ts pos k js tr h; cases h; simp
      | cons p kvs ih' =>
        intro hsz ts pos k js tr h
        cases h with
        | cons h1 h2 =>
          have h3 := ih _ (hsz (_, _) List.mem_cons_self) _ _ _ _ h1
          simp only at h3
          have := ih' (fun w hw => hsz w (by simp [hw])) _ _ _ _ _ h2
          simp only [addrsVals, List.map_append, List.count_append]
          omega
    have members : ∀ (vs : List Val), (∀ w ∈ vs, sizeOf w < sizeOf v) → ∀ ms pos k js tr, ShowsMembers env vs ms pos k js tr →
        (tr.map Occ.addr).count a ≤ (addrsAll vs).count a := by
      intro vs
      induction vs with
      | nil => intro _ ts pos k js tr h; cases h; simp
      | cons w vs ih' =>
        intro hsz ts pos k js tr h
        cases h with
        | skip _ h2 =>
          have := ih' (fun w hw => hsz w (by simp [hw])) _ _ _ _ _ h2
          simp only [addrsAll, List.count_append]
          omega
        | @engaged w _ _ _ _ _ _ _ _ _ _ h1 h2 =>
          have hw := hsz (.present w) (by simp)
          have := ih w (by simp at hw; omega) _ _ _ _ h1
          have := ih' (fun w hw => hsz w (by simp [hw])) _ _ _ _ _ h2
          simp only [addrsAll, addrs, List.map_append, List.count_append]
          omega
        | plain _ h1 h2 =>
          have := ih w (hsz w (by simp)) _ _ _ _ h1
          have := ih' (fun w hw => hsz w (by simp [hw])) _ _ _ _ _ h2
          simp only [addrsAll, List.map_append, List.count_append]
          omega
    intro t pos j tr h
    cases h with
    | prim _ => simp
    | @vec vs _ _ _ _ h => rw [addrs]; exact items vs (fun w hw => by have := mem_size hw; simp; omega) _ _ _ _ _ h
    | @arr vs _ _ _ _ _ h => rw [addrs]; exact items vs (fun w hw => by have := mem_size hw; simp; omega) _ _ _ _ _ h
    | @tuple vs _ _ _ _ h => rw [addrs]; exact items vs (fun w hw => by have := mem_size hw; simp; omega) _ _ _ _ _ h
    | @set vs _ _ _ _ h => rw [addrs]; exact items vs (fun w hw => by have := mem_size hw; simp; omega) _ _ _ _ _ h
    | @map kvs kvs' _ _ _ _ _ hp _ h =>
      have h1 := vals kvs' (fun p hp' => by have := mem_size_kv (hp.mem_iff.1 hp'); simp; omega) _ _ _ _ _ h
      have h2 : ∀ l l' : List (Str × Val), l.Perm l' → (addrsVals l).count a = (addrsVals l').count a := by
        intro l l' hp
        induction hp with
        | nil => rfl
        | cons x _ ih => simp only [addrsVals, List.count_append, ih]
        | swap x y l => simp only [addrsVals, List.count_append]; omega
        | trans _ _ ih1 ih2 => rw [ih1, ih2]
      rw [addrs, ← h2 _ _ hp]
      exact h1
    | @dict kvs _ _ _ _ h => rw [addrs]; exact vals kvs (fun p hp' => by have := mem_size_kv hp'; simp; omega) _ _ _ _ _ h
    | @alt i v _ _ _ _ _ _ h => rw [addrs]; exact ih v (by simp; omega) _ _ _ _ h
    | @cls vs _ _ _ _ h => rw [addrs]; exact members vs (fun w hw => by have := mem_size hw; simp; omega) _ _ _ _ _ h
    | @uptr v _ _ _ _ h => rw [addrs]; exact ih v (by simp) _ _ _ _ h
    | @full b v _ _ _ _ h =>
      have := ih v (by simp; omega) _ _ _ _ h
      simp only [addrs, List.map_append, List.count_append, List.map_cons, List.map_nil, Occ.addr, List.count_cons, List.count_nil]
      omega
    | @ref b v _ _ p =>
      simp only [addrs, List.map_cons, List.map_nil, Occ.addr, List.count_cons, List.count_nil]
      omega

theorem count_fulls (a : Nat) (tr : List Occ) : (fulls tr).count a ≤ (tr.map Occ.addr).count a := by
  induction tr with
  | nil => simp [fulls]
  | cons o tr ih => cases o <;> simp only [fulls, List.map_cons, Occ.addr, List.count_cons] <;> omega

/-- If no shared object is reached twice then no reference is written. -/
theorem noRefs_of_nodup {env : Env} {v : Val} {t : Ty} {pos : List Nat} {j : Json} {tr : List Occ} (h : Shows env v t pos j tr) (hg : Good [] tr)
    (hn : (addrs v).Nodup) : NoRefs tr := by
  intro a p hm
  obtain ⟨tr1, tr2, rfl⟩ := List.append_of_mem hm
  have h1 := hg.ref_before
  have h2 := shows_count a v t pos j _ h
  have h3 := List.nodup_iff_count.1 hn a
  have h4 : 1 ≤ (fulls tr1).count a := List.count_pos_iff.2 h1
  have h5 := count_fulls a tr1
  simp only [List.map_append, List.map_cons, Occ.addr, List.count_append, List.count_cons, beq_self_eq_true, if_true] at h2
  omega

end Verif.Core
