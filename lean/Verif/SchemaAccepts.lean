import Verif.SchemaInv
import Verif.ReadShared
import Verif.Agree

/-!
# Documents that are valid against a generated schema conform to the type

A schema does not tell everything about a leaf: strings with a `format` or `contentEncoding`, and how a whole number
is written. With these conditions (`Formatted`), valid documents conform to the type.
-/

namespace Verif.Core
open Verif.Numeric Verif.EnumConv JsonSchema

/-- What a schema does not say about a leaf: an integer is written without fraction and exponent; the text of a
time stamp, date or byte string has its format. -/
def LeafFormat (env : Env) : Prim → Json → Prop
  | .int _, .num (.dbl x) => isInteger (.dbl x) = false
  | .bytes, .str s => ∃ bs, Base64.decode s = some bs
  | .time, .str s => ∃ t, DateTime.parseDatetime env.clk s = .ok t
  | .date, .str s => ∃ y m d, DateTime.readDate env.clk s = .ok y m d
  | _, _ => True

/-- The document `j`, read as a `t`, has a leaf `j'` that is read as a `p`. -/
inductive LeafAt (env : Env) (p : Prim) (j' : Json) : Ty → Json → Prop
  | prim : LeafAt env p j' (.prim p) j'
  | vec (t : Ty) (js : List Json) (j : Json) : j ∈ js → LeafAt env p j' t j → LeafAt env p j' (.vec t) (.arr js)
  | arr (n : Nat) (t : Ty) (js : List Json) (j : Json) : j ∈ js → LeafAt env p j' t j → LeafAt env p j' (.arr n t) (.arr js)
  | set (t : Ty) (js : List Json) (j : Json) : j ∈ js → LeafAt env p j' t j → LeafAt env p j' (.set t) (.arr js)
  | map (o : Bool) (t : Ty) (ms : List (Str × Json)) (q : Str × Json) : q ∈ ms → LeafAt env p j' t q.2 → LeafAt env p j' (.map o t) (.obj ms)
  | dict (t : Ty) (js : List Json) (j : Json) : j ∈ js → LeafAt env p j' (.tuple [.prim .str, t]) j → LeafAt env p j' (.dict t) (.arr js)
  | tuple (ts : List Ty) (js : List Json) (i : Nat) (t : Ty) (j : Json) : ts[i]? = some t → js[i]? = some j → LeafAt env p j' t j →
      LeafAt env p j' (.tuple ts) (.arr js)
  | variant (ts : List Ty) (j : Json) (t : Ty) : t ∈ ts → LeafAt env p j' t j → LeafAt env p j' (.variant ts) j
  | cls (c : Nat) (ms : List (Str × Json)) (m : Member) (j : Json) : m ∈ env.members c → (m.name, j) ∈ ms → LeafAt env p j' m.ty j →
      LeafAt env p j' (.cls c) (.obj ms)
  | uptr (t : Ty) (j : Json) : LeafAt env p j' t j → LeafAt env p j' (.uptr t) j
  | sptr (t : Ty) (j : Json) : LeafAt env p j' t j → LeafAt env p j' (.sptr t) j

/-- All leaves of the document are written as the type demands. -/
def Formatted (env : Env) (t : Ty) (j : Json) : Prop := ∀ p j', LeafAt env p j' t j → LeafFormat env p j'

/-- A valid leaf denotes a value. -/
theorem leaf_valid (env : Env) {root : Json} (p : Prim) (doc : Json) (h : JsonSchema.Verdict root (primSchema p).json doc true) (hf : LeafFormat env p doc) :
    ∃ pv, LeafReads env p doc pv := by
  cases p with
  | null =>
    have hk := kind_null doc (fundamental_valid h)
    cases doc <;> first | exact ⟨_, .null⟩ | cases hk
  | bool =>
    have hk := kind_bool doc (fundamental_valid h)
    cases doc <;> first | exact ⟨_, .bool _⟩ | cases hk
  | int t =>
    obtain ⟨lo, hi, hlo, hhi, kw, hkw, h'⟩ : ∃ lo hi, t.min = lo ∧ t.max = hi ∧ ∃ kw, kw = [(lit "type", .str (lit "integer")), (lit "minimum", .num (.int lo)),
        (lit "maximum", .num (.int hi))] ∧ JsonSchema.Verdict root (.obj kw) doc true := by
      refine ⟨t.min, t.max, rfl, rfl, _, rfl, ?_⟩
      rw [primSchema] at h
      split at h
      · exact h
      · rename_i hs
        have : t.min = 0 := by simp [IntTy.min, hs]
        rw [this]
        exact h
    obtain ⟨x, rfl, h1, h2, h3⟩ := integer_valid hkw h'
    cases x with
    | int v =>
      rw [numLe_int] at h2 h3
      simp at h2 h3
      refine ⟨_, .int t v ?_⟩
      subst hlo hhi
      exact ⟨h2, h3⟩
    | dbl x =>
      have : isInteger (.dbl x) = false := hf
      rw [this] at h1
      cases h1
  | flt t =>
    have hk := kind_number doc (fundamental_valid h)
    cases doc <;> first | exact ⟨_, .flt t _⟩ | cases hk
  | str =>
    have hk := kind_string doc (fundamental_valid h)
    cases doc <;> first | exact ⟨_, .str _⟩ | cases hk
  | bytes =>
    have hk := kind_string doc (fundamental_valid h)
    cases doc <;> cases hk
    obtain ⟨bs, hb⟩ := hf
    exact ⟨_, .bytes _ bs hb⟩
  | time =>
    have hk := kind_string doc (fundamental_valid h)
    cases doc <;> cases hk
    obtain ⟨t, ht⟩ := hf
    exact ⟨_, .time _ t ht⟩
  | date =>
    have hk := kind_string doc (fundamental_valid h)
    cases doc <;> cases hk
    obtain ⟨y, m, d, hd⟩ := hf
    exact ⟨_, .date _ y m d hd⟩
  | enumInt t => exact (enumeration_valid h).elim
  | enumStr t => exact (enumeration_valid h).elim

theorem leafReads_lower {env : Env} {p : Prim} {j : Json} {pv : PVal} (h : LeafReads env p j pv) : LeafReads env.lower p j pv := by
  cases h with
  | null => exact .null
  | bool b => exact .bool b
  | int t v h => exact .int t v h
  | flt t x => exact .flt t x
  | str s => exact .str s
  | bytes s bs h => exact .bytes s bs h
  | time s t h => exact .time s t h
  | date s y m d h => exact .date s y m d h
  | enumInt t v h => exact .enumInt t v h
  | enumStr table s v h => exact .enumStr table s v h

theorem lowers_getElem? (ts : List Ty) (i : Nat) : (Ty.lowers ts)[i]? = (ts[i]?).map Ty.lower := by rw [lowers_map, List.getElem?_map]

theorem findMember_none_iff {α : Type} {k : Str} : ∀ {ms : List (Str × α)}, findMember k ms = none → k ∉ ms.map (·.1) := by
  intro ms
  induction ms with
  | nil => simp
  | cons p ms ih =>
    obtain ⟨k', a'⟩ := p
    intro h
    rw [findMember] at h
    split at h
    · cases h
    · rename_i he
      split at h
      · rename_i hf
        simp only [List.map_cons, List.mem_cons, not_or]
        exact ⟨fun e => he e.symm, ih hf⟩
      · cases h

/-- The first property with a name belongs to the first member with it. -/
theorem property_member {env : Env} {D : Defs} {ps : List (Str × Schema)} : ∀ {ms : List Member}, ps.map (·.1) = ms.map (·.name) →
    (∀ (i : Nat) m p, ms[i]? = some m → ps[i]? = some p → Desc env D m.ty p.2) → ∀ {k : Str} {s : Schema}, ps.lookup k = some s →
    ∃ (i : Nat) (m : Member), memberAt ms k = some i ∧ ms[i]? = some m ∧ m.name = k ∧ ∃ p, ps[i]? = some p ∧ p.2 = s := by
  induction ps with
  | nil => intro ms _ _ k s h; cases h
  | cons p ps ih =>
    intro ms hn hd k s h
    cases ms with
    | nil => simp at hn
    | cons m ms =>
      simp only [List.map_cons, List.cons.injEq] at hn
      obtain ⟨k', s'⟩ := p
      rw [List.lookup_cons] at h
      by_cases he : k = k'
      · subst he
        simp at h
        refine ⟨0, m, ?_, rfl, hn.1.symm, _, rfl, h⟩
        simp [memberAt, List.findIdx?_cons, ← hn.1]
      · have : (k == k') = false := by simpa using he
        rw [this] at h
        obtain ⟨i, m', h1, h2, h3, p, h4, h5⟩ := ih hn.2 (fun i m p a b => hd (i + 1) m p (by simpa using a) (by simpa using b)) h
        refine ⟨i + 1, m', ?_, by simpa using h2, h3, p, by simpa using h4, h5⟩
        have hne : (m.name == k) = false := by
          rw [← hn.1]
          simpa using fun e => he e.symm
        simp only [memberAt, List.findIdx?_cons, hne] at h1 ⊢
        simp [h1]

/-- A valid document with formatted leaves conforms to the type. -/
theorem valid_conforms {env : Env} {D : Defs} (hp : ∀ c, PlainName (className env c)) (version : Option Str) (s0 : Schema)
    (hdist : env.DistinctNames) {t : Ty} {s : Schema}
    (hd : Desc env D t s) : ∀ doc : Json, JsonSchema.Verdict (schemaDoc version D s0) s.json doc true → Formatted env t doc →
      ¬ Fails env.lower t.lower doc := by
  induction hd with
  | prim p =>
    intro doc hv hf h
    obtain ⟨pv, hr⟩ := leaf_valid env p doc hv (hf p doc .prim)
    cases h with
    | prim _ _ h => exact h pv (leafReads_lower hr)
    | array _ _ h => cases h
    | object _ _ h => cases h
  | vec t s _ ih =>
    intro doc hv hf h
    obtain ⟨js, rfl, hj, -⟩ := items_valid hv
    cases h with
    | array _ _ _ h => exact h js rfl
    | object _ _ h => cases h
    | vec _ _ j hm h => exact ih j (hj j hm) (fun p j' hl => hf p j' (.vec _ _ j hm hl)) h
  | arr n t s _ ih =>
    intro doc hv hf h
    obtain ⟨js, rfl, hj, hl⟩ := items_valid hv
    cases h with
    | array _ _ _ h => exact h js rfl
    | object _ _ h => cases h
    | arr _ _ _ j hm h => exact ih j (hj j hm) (fun p j' hl => hf p j' (.arr _ _ _ j hm hl)) h
    | arrLength _ _ _ h => exact h (hl n rfl)
  | set t s _ ih =>
    intro doc hv hf h
    obtain ⟨js, rfl, hj, -⟩ := items_valid hv
    cases h with
    | array _ _ _ h => exact h js rfl
    | object _ _ h => cases h
    | set _ _ j hm h => exact ih j (hj j hm) (fun p j' hl => hf p j' (.set _ _ j hm hl)) h
  | dict t s _ ih =>
    intro doc hv hf h
    obtain ⟨js, rfl, hj, -⟩ := items_valid hv
    cases h with
    | array _ _ _ h => exact h js rfl
    | object _ _ h => cases h
    | dict _ _ j hm h => exact ih j (hj j hm) (fun p j' hl => hf p j' (.dict _ _ j hm hl)) h
  | map o t s _ ih =>
    intro doc hv hf h
    obtain ⟨ms, rfl, hj⟩ := mapping_valid hv
    cases h with
    | array _ _ h => cases h
    | object _ _ _ h => exact h ms rfl
    | map _ _ _ p hm h => exact ih p.2 (hj p hm) (fun p' j' hl => hf p' j' (.map _ _ _ p hm hl)) h
  | tuple ts ss hl _ ih =>
    intro doc hv hf h
    obtain ⟨js, rfl, hlen, hj⟩ := tuple_valid hv
    cases h with
    | array _ _ _ h => exact h js rfl
    | object _ _ h => cases h
    | tuple _ _ i t' j h1 h2 h =>
      rw [lowers_getElem?] at h1
      cases ht : ts[i]? with
      | none => simp [ht] at h1
      | some t =>
        simp [ht] at h1
        subst h1
        have hi : i < ss.length := by
          have := (List.getElem?_eq_some_iff.1 ht).1
          omega
        have hs : ss[i]? = some ss[i] := by simp [hi]
        exact ih i t ss[i] ht hs j (hj i ss[i] j hs h2) (fun p j' hl => hf p j' (.tuple _ _ i t j ht h2 hl)) h
    | tupleLength _ _ h => exact h (by rw [lowers_map, List.length_map]; omega)
  | variant ts ss hl _ ih =>
    intro doc hv hf h
    obtain ⟨s, hs, hv⟩ := oneOf_valid hv
    obtain ⟨i, hi, he⟩ := List.getElem_of_mem hs
    have hi' : i < ts.length := by omega
    have hm : (ts[i]).lower ∈ Ty.lowers ts := by
      rw [lowers_map]
      exact List.mem_map.2 ⟨_, List.getElem_mem hi', rfl⟩
    cases h with
    | array _ _ h => cases h
    | object _ _ h => cases h
    | variant _ _ h =>
      exact ih i ts[i] s (by simp [hi']) (by simp [hi, he]) doc hv (fun p j' hl => hf p j' (.variant _ _ _ (List.getElem_mem hi') hl)) (h _ hm)
  | cls c ps hn hd ih =>
    intro doc hv hf h
    obtain ⟨ms, rfl, hj, hr⟩ := object_valid hv
    have hmem : env.lower.members c = (env.members c).map Member.lower := rfl
    cases h with
    | array _ _ h => cases h
    | object _ _ _ h => exact h ms rfl
    | member _ _ m' i j h1 h2 h =>
      rw [hmem] at h1
      obtain ⟨m, hm, rfl⟩ := List.mem_map.1 h1
      obtain ⟨s, hs, hv⟩ := hj _ (findMember_mem h2)
      obtain ⟨k, m', g1, g2, g3, p, g4, g5⟩ := property_member hn hd hs
      obtain ⟨k', hk', he⟩ := List.getElem_of_mem hm
      have hk : k < (env.members c).length := (List.getElem?_eq_some_iff.1 g2).1
      have : k = k' := by
        have e1 : (env.members c)[k] = m' := (List.getElem?_eq_some_iff.1 g2).2
        refine (List.getElem_inj (h₀ := by simpa using hk) (h₁ := by simpa using hk') (hdist c)).1 ?_
        simp only [List.getElem_map, e1, he, g3]
        rfl
      subst this
      have : m = m' := by
        rw [← he]; exact (List.getElem?_eq_some_iff.1 g2).2
      subst this g5
      exact ih k m p g2 g4 j hv (fun p j' hl => hf p j' (.cls _ _ m j hm (findMember_mem h2) hl)) h
    | missing _ _ m' h1 h2 h3 =>
      rw [hmem] at h1
      obtain ⟨m, hm, rfl⟩ := List.mem_map.1 h1
      have h3' : m.kind = .required := h3
      exact findMember_none_iff h2 (hr m.name (List.mem_map.2 ⟨m, by simp [hm, h3'], rfl⟩))
  | ref c s hl _ ih =>
    intro doc hv hf h
    exact ih doc (ref_valid (Desc.resolve version s0 hp hl) hv) hf h
  | uptr t s _ ih =>
    intro doc hv hf h
    cases h with
    | array _ _ h => cases h
    | object _ _ h => cases h
    | uptr _ _ h => exact ih doc hv (fun p j' hl => hf p j' (.uptr _ _ hl)) h
  | sptr t s _ ih =>
    intro doc hv hf h
    cases h with
    | array _ _ h => cases h
    | object _ _ h => cases h
    | uptr _ _ h => exact ih doc hv (fun p j' hl => hf p j' (.sptr _ _ hl)) h

/-! ## The streaming parser -/

/-- Numbers in the range that the streaming parser converts to a floating-point type. -/
def LeafFits : Prim → Json → Prop
  | .flt f, .num (.int v) => v.natAbs < 2 ^ f.digits
  | .flt .float, .num (.dbl d) => withinRange .float d = true
  | _, _ => True

/-- All numbers of the document fit. -/
def Fitting (env : Env) (t : Ty) (j : Json) : Prop := ∀ p j', LeafAt env p j' t j → LeafFits p j'

/-- The document means some value, whatever the target. -/
def MeansSome (f : MFn) (t : Ty) : Prop := ∀ target n, ∃ v n', f t target n = .yes v n'

theorem leafMeaning_reads (env : Env) (p : Prim) (j : Json) (pv : PVal) (h : LeafReads env p j pv) (hf : LeafFits p j) :
    ∃ pv', leafMeaning env p j = .ok pv' := by
  have hd := (desPrim_ok env p j pv).2 h
  cases h with
  | flt t x =>
    have : ∃ f, floatMeaning t x = some f := by
      cases x with
      | int v => exact ⟨_, if_pos hf⟩
      | dbl d =>
        cases t with
        | double => exact ⟨_, rfl⟩
        | float => exact ⟨_, if_pos hf⟩
    obtain ⟨f, hf⟩ := this
    exact ⟨.flt f, by rw [leafMeaning, hf]⟩
  | _ => exact ⟨_, by rw [leafMeaning.eq_def]; simp only [hd]; exact rfl⟩

theorem manyM_some (env : Env) (t : Ty) (fs : List MFn) (h : ∀ f ∈ fs, MeansSome f t) : ∀ n, ∃ vs n', manyM env t fs n = .yes vs n' := by
  induction fs with
  | nil => intro n; exact ⟨_, _, rfl⟩
  | cons f fs ih =>
    intro n
    obtain ⟨v, n1, h1⟩ := h f (by simp) (env.ctor t) n
    obtain ⟨vs, n2, h2⟩ := ih (fun f hf => h f (by simp [hf])) n1
    exact ⟨_, _, by rw [manyM, h1]; simp only [Means.bind, h2, Means.map]; exact rfl⟩

theorem eachM_some (env : Env) : ∀ (fs : List MFn) (ts : List Ty), fs.length = ts.length →
    (∀ (i : Nat) f t, fs[i]? = some f → ts[i]? = some t → MeansSome f t) → ∀ targets n, ∃ vs n', eachM env fs ts targets n = .yes vs n' := by
  intro fs
  induction fs with
  | nil =>
    intro ts hl h targets n
    cases ts with
    | nil => exact ⟨_, _, rfl⟩
    | cons t ts => cases hl
  | cons f fs ih =>
    intro ts hl h targets n
    cases ts with
    | nil => cases hl
    | cons t ts =>
      obtain ⟨v, n1, h1⟩ := h 0 f t rfl rfl (targets.headD (env.ctor t)) n
      obtain ⟨vs, n2, h2⟩ := ih ts (by simpa using hl) (fun i f t a b => h (i + 1) f t (by simpa using a) (by simpa using b)) targets.tail n1
      exact ⟨_, _, by rw [eachM, h1]; simp only [Means.bind, h2, Means.map]; exact rfl⟩

theorem entriesM_some (env : Env) (t : Ty) (fs : List (Str × MFn)) (h : ∀ p ∈ fs, MeansSome p.2 t) : ∀ kvs n, ∃ vs n', entriesM env t fs kvs n = .yes vs n' := by
  induction fs with
  | nil => intro kvs n; exact ⟨_, _, rfl⟩
  | cons p fs ih =>
    obtain ⟨k, f⟩ := p
    intro kvs n
    obtain ⟨v, n1, h1⟩ := h (k, f) (by simp) ((kvs.lookup k).getD (env.ctor t)) n
    obtain ⟨vs, n2, h2⟩ := ih (fun p hp => h p (by simp [hp])) (mapAssign k v kvs) n1
    refine ⟨vs, n2, ?_⟩
    have h1' : f t ((kvs.lookup k).getD (env.ctor t)) n = .yes v n1 := h1
    rw [entriesM, h1']
    exact h2

theorem membersM_some (env : Env) (ms : List Member) (fs : List (Str × MFn))
    (h : ∀ p ∈ fs, ∃ i m, memberAt ms p.1 = some i ∧ ms[i]? = some m ∧ MeansSome p.2 m.ty) : ∀ vs n, ∃ ws n', membersM env ms fs vs n = .yes ws n' := by
  induction fs with
  | nil => intro vs n; exact ⟨_, _, rfl⟩
  | cons p fs ih =>
    obtain ⟨k, f⟩ := p
    intro vs n
    obtain ⟨i, m, h1, h2, h3⟩ := h (k, f) (by simp)
    have ih' := ih fun p hp => h p (by simp [hp])
    simp only at h1
    by_cases hk : m.kind = .optional
    · obtain ⟨v, n1, h4⟩ := h3 (env.ctor m.ty) n
      have h4' : f m.ty (env.ctor m.ty) n = .yes v n1 := h4
      obtain ⟨ws, n2, h5⟩ := ih' (vs.set i (.present v)) n1
      refine ⟨ws, n2, ?_⟩
      rw [membersM, h1]
      simp only [h2, if_pos hk, h4', Means.bind]
      exact h5
    · obtain ⟨v, n1, h4⟩ := h3 (vs.getD i (env.ctor m.ty)) n
      have h4' : f m.ty (vs.getD i (env.ctor m.ty)) n = .yes v n1 := h4
      obtain ⟨ws, n2, h5⟩ := ih' (vs.set i v) n1
      refine ⟨ws, n2, ?_⟩
      rw [membersM, h1]
      simp only [h2, if_neg hk, h4', Means.bind]
      exact h5

/-- A valid document with formatted leaves in range means a value to the streaming parser. -/
theorem valid_means {env : Env} {D : Defs} (hp : ∀ c, PlainName (className env c)) (version : Option Str) (s0 : Schema)
    (G : Nat → Prop) (hG : StreamableClasses env G) {t : Ty} {s : Schema}
    (hd : Desc env D t s) : ∀ doc : Json, Streamable G t → JsonSchema.Verdict (schemaDoc version D s0) s.json doc true → Formatted env t doc →
      Fitting env t doc → MeansSome (meaning env doc) t := by
  induction hd with
  | prim p =>
    intro doc _ hv hf hr target n
    obtain ⟨pv, h1⟩ := leaf_valid env p doc hv (hf p doc .prim)
    obtain ⟨pv', h2⟩ := leafMeaning_reads env p doc pv h1 (hr p doc .prim)
    exact ⟨_, _, by rw [meaning_prim, h2]⟩
  | vec t s _ ih =>
    intro doc hs hv hf hr target n
    obtain ⟨js, rfl, hj, -⟩ := items_valid hv
    obtain ⟨vs, n', h⟩ := manyM_some env t (meaningItems env js) (by
      intro f hm
      rw [meaningItems_eq] at hm
      obtain ⟨j, hjm, rfl⟩ := List.mem_map.1 hm
      exact ih j hs.2 (hj j hjm) (fun p j' hl => hf p j' (.vec _ _ j hjm hl)) fun p j' hl => hr p j' (.vec _ _ j hjm hl)) n
    exact ⟨_, _, by rw [meaning, nodeM, h]; rfl⟩
  | arr k t s _ ih =>
    intro doc hs hv hf hr target n
    obtain ⟨js, rfl, hj, hl⟩ := items_valid hv
    obtain ⟨vs, n', h⟩ := eachM_some env (meaningItems env js) (List.replicate k t) (by
      rw [meaningItems_eq, List.length_map, List.length_replicate, hl k rfl]) (by
      intro i f t' hi ht
      obtain rfl : t' = t := List.eq_of_mem_replicate (List.mem_of_getElem? ht)
      rw [meaningItems_eq] at hi
      obtain ⟨j, hm, rfl⟩ := List.mem_map.1 (List.mem_of_getElem? hi)
      exact ih j hs (hj j hm) (fun p j' hl => hf p j' (.arr _ _ _ j hm hl)) fun p j' hl => hr p j' (.arr _ _ _ j hm hl)) target.components n
    exact ⟨_, _, by rw [meaning, nodeM, h]; rfl⟩
  | set t s _ ih =>
    intro doc hs hv hf hr target n
    obtain ⟨js, rfl, hj, -⟩ := items_valid hv
    obtain ⟨vs, n', h⟩ := manyM_some env t (meaningItems env js) (by
      intro f hm
      rw [meaningItems_eq] at hm
      obtain ⟨j, hjm, rfl⟩ := List.mem_map.1 hm
      exact ih j hs.2 (hj j hjm) (fun p j' hl => hf p j' (.set _ _ j hjm hl)) fun p j' hl => hr p j' (.set _ _ j hjm hl)) n
    exact ⟨_, _, by rw [meaning, nodeM, h]; rfl⟩
  | dict t s _ ih =>
    intro doc hs hv hf hr target n
    obtain ⟨js, rfl, hj, -⟩ := items_valid hv
    obtain ⟨vs, n', h⟩ := manyM_some env (.tuple [.prim .str, t]) (meaningItems env js) (by
      intro f hm
      rw [meaningItems_eq] at hm
      obtain ⟨j, hjm, rfl⟩ := List.mem_map.1 hm
      exact ih j ⟨rfl, hs, trivial⟩ (hj j hjm) (fun p j' hl => hf p j' (.dict _ _ j hjm hl)) fun p j' hl => hr p j' (.dict _ _ j hjm hl)) n
    exact ⟨_, _, by rw [meaning, nodeM, h]; rfl⟩
  | map o t s _ ih =>
    intro doc hs hv hf hr target n
    obtain ⟨ms, rfl, hj⟩ := mapping_valid hv
    obtain ⟨vs, n', h⟩ := entriesM_some env t (meaningFields env ms) (by
      intro f hm
      rw [meaningFields_eq] at hm
      obtain ⟨q, hqm, rfl⟩ := List.mem_map.1 hm
      exact ih q.2 hs (hj q hqm) (fun p j' hl => hf p j' (.map _ _ _ q hqm hl)) fun p j' hl => hr p j' (.map _ _ _ q hqm hl)) target.entries n
    exact ⟨_, _, by rw [meaning, nodeM, h]; rfl⟩
  | tuple ts ss hl _ ih =>
    intro doc hs hv hf hr target n
    obtain ⟨js, rfl, hlen, hj⟩ := tuple_valid hv
    have hst : ∀ t ∈ ts, Streamable G t := (streamableAll_iff G ts).1 hs
    obtain ⟨vs, n', h⟩ := eachM_some env (meaningItems env js) ts (by
      rw [meaningItems_eq, List.length_map]; omega) (by
      intro i f t hi ht
      rw [meaningItems_eq, List.getElem?_map] at hi
      cases hji : js[i]? with
      | none => simp [hji] at hi
      | some j =>
        simp [hji] at hi
        subst hi
        have hi : i < ss.length := by
          have := (List.getElem?_eq_some_iff.1 ht).1
          omega
        have hs : ss[i]? = some ss[i] := by simp [hi]
        exact ih i t ss[i] ht hs j (hst t (List.mem_of_getElem? ht)) (hj i ss[i] j hs hji) (fun p j' hl => hf p j' (.tuple _ _ i t j ht hji hl))
          fun p j' hl => hr p j' (.tuple _ _ i t j ht hji hl)) target.components n
    exact ⟨_, _, by rw [meaning, nodeM, h]; rfl⟩
  | variant ts ss _ _ _ => intro doc hs; exact hs.elim
  | cls c ps hn hd ih =>
    intro doc hs hv hf hr target n
    obtain ⟨ms, rfl, hj, -⟩ := object_valid hv
    obtain ⟨vs, n', h⟩ := membersM_some env (env.members c) (meaningFields env ms) (by
      intro f hm
      rw [meaningFields_eq] at hm
      obtain ⟨⟨k, j⟩, hjm, rfl⟩ := List.mem_map.1 hm
      obtain ⟨s, hs', hv⟩ := hj (k, j) hjm
      obtain ⟨i, m, g1, g2, rfl, p, g4, rfl⟩ := property_member hn hd hs'
      have hmm := List.mem_of_getElem? g2
      exact ⟨i, m, g1, g2, ih i m p g2 g4 j ((hG c hs).2 m hmm) hv (fun p j' hl => hf p j' (.cls _ _ m j hmm hjm hl))
        fun p j' hl => hr p j' (.cls _ _ m j hmm hjm hl)⟩) (fitMembers env (env.members c) target.members) n
    exact ⟨_, _, by rw [meaning, nodeM, h]; rfl⟩
  | ref c s hl _ ih =>
    intro doc hs hv hf hr
    exact ih doc hs (ref_valid (Desc.resolve version s0 hp hl) hv) hf hr
  | uptr t s _ ih =>
    intro doc hs hv hf hr target n
    obtain ⟨v, n', h⟩ := ih doc hs hv (fun p j' hl => hf p j' (.uptr _ _ hl)) (fun p j' hl => hr p j' (.uptr _ _ hl)) (env.ctor t) n
    exact ⟨_, _, by rw [meaning_uptr, h]; rfl⟩
  | sptr t s _ ih =>
    intro doc hs hv hf hr target n
    obtain ⟨v, n', h⟩ := ih doc hs hv (fun p j' hl => hf p j' (.sptr _ _ hl)) (fun p j' hl => hr p j' (.sptr _ _ hl)) (env.ctor t) (n + 1)
    exact ⟨_, _, by rw [meaning_sptr, h]; rfl⟩

/-! ## Both readers -/

/-- A document that is valid for a class is valid for its properties. -/
theorem class_valid {env : Env} {D : Defs} (hp : ∀ c, PlainName (className env c)) (version : Option Str) (s0 : Schema) {t : Ty} {s : Schema}
    (hd : Desc env D t s) : ∀ c, t = .cls c → ∀ doc, JsonSchema.Verdict (schemaDoc version D s0) s.json doc true →
      ∃ (ps : List (Str × Schema)) (ms : List (Str × Json)), doc = .obj ms ∧ ps.map (·.1) = (env.members c).map (·.name) ∧
        (∀ (i : Nat) m p, (env.members c)[i]? = some m → ps[i]? = some p → Desc env D m.ty p.2) ∧
        (∀ q ∈ ms, ∃ s, ps.lookup q.1 = some s ∧ JsonSchema.Verdict (schemaDoc version D s0) s.json q.2 true) ∧
        ∀ m ∈ env.members c, m.kind ≠ .optional → m.name ∈ ms.map (·.1) := by
  induction hd with
  | cls c' ps hn hd _ =>
    rintro c h doc hv
    cases h
    obtain ⟨ms, rfl, hj, hr⟩ := object_valid hv
    exact ⟨ps, ms, rfl, hn, hd, hj, fun m hm hk => hr _ (List.mem_map.2 ⟨m, by simp [hm, hk], rfl⟩)⟩
  | ref c' s hl _ ih =>
    rintro c h doc hv
    exact ih c h doc (ref_valid (Desc.resolve version s0 hp hl) hv)
  | _ => rintro c h; cases h

/-- The parts of a valid document are valid for the types they are read as. -/
theorem child_valid {env : Env} {D : Defs} (hp : ∀ c, PlainName (className env c)) (hdist : env.DistinctNames) (version : Option Str) (s0 : Schema)
    {t t' : Ty} {doc doc' : Json} {s : Schema} (hd : Desc env D t s) (hv : JsonSchema.Verdict (schemaDoc version D s0) s.json doc true)
    (hc : Child env t doc t' doc') (hnv : ∀ ts, t ≠ .variant ts) : ∃ s', Desc env D t' s' ∧ JsonSchema.Verdict (schemaDoc version D s0) s'.json doc' true := by
  cases hc with
  | vec _ js _ hm =>
    cases hd with
    | vec _ s hd =>
      obtain ⟨_, h, hj, -⟩ := items_valid hv
      cases h
      exact ⟨s, hd, hj _ hm⟩
  | arr n _ js _ hm =>
    cases hd with
    | arr _ _ s hd =>
      obtain ⟨_, h, hj, -⟩ := items_valid hv
      cases h
      exact ⟨s, hd, hj _ hm⟩
  | set _ js _ hm =>
    cases hd with
    | set _ s hd =>
      obtain ⟨_, h, hj, -⟩ := items_valid hv
      cases h
      exact ⟨s, hd, hj _ hm⟩
  | map o _ ms p hm =>
    cases hd with
    | map _ _ s hd =>
      obtain ⟨_, h, hj⟩ := mapping_valid hv
      cases h
      exact ⟨s, hd, hj _ hm⟩
  | dict _ js _ hm =>
    cases hd with
    | dict _ s hd =>
      obtain ⟨_, h, hj, -⟩ := items_valid hv
      cases h
      exact ⟨s, hd, hj _ hm⟩
  | tuple ts js i _ _ h1 h2 =>
    cases hd with
    | tuple _ ss hl hd =>
      obtain ⟨_, h, hlen, hj⟩ := tuple_valid hv
      cases h
      have hi : i < ss.length := by
        have := (List.getElem?_eq_some_iff.1 h1).1
        omega
      have hs : ss[i]? = some ss[i] := by simp [hi]
      exact ⟨_, hd i _ _ h1 hs, hj i _ _ hs h2⟩
  | variant ts _ _ _ => exact absurd rfl (hnv ts)
  | cls c ms m i _ h1 h2 =>
    obtain ⟨ps, ms', h, hn, hd, hj, -⟩ := class_valid hp version s0 hd c rfl _ hv
    cases h
    obtain ⟨s, hs, hv⟩ := hj _ (findMember_mem h2)
    obtain ⟨k, m', g1, g2, g3, p, g4, g5⟩ := property_member hn hd hs
    obtain ⟨k', hk', he⟩ := List.getElem_of_mem h1
    have hk : k < (env.members c).length := (List.getElem?_eq_some_iff.1 g2).1
    have : k = k' := by
      have e1 : (env.members c)[k] = m' := (List.getElem?_eq_some_iff.1 g2).2
      refine (List.getElem_inj (h₀ := by simpa using hk) (h₁ := by simpa using hk') (hdist c)).1 ?_
      simp only [List.getElem_map, e1, he, g3]
    subst this
    have : m = m' := by
      rw [← he]; exact (List.getElem?_eq_some_iff.1 g2).2
    subst this g5
    exact ⟨_, hd k m p g2 g4, hv⟩
  | uptr _ _ =>
    cases hd with
    | uptr _ s hd => exact ⟨s, hd, hv⟩

/-- Each object has each key once, and no key contains a NUL character. -/
def PlainKeys (j : Json) : Prop := ∀ ms, Sub (.obj ms) j → (ms.map (·.1)).Nodup ∧ ∀ k ∈ ms.map (·.1), 0 ∉ k

theorem Sub.trans {a b c : Json} (h : Sub a b) (h' : Sub b c) : Sub a c := by
  induction h' with
  | self => exact h
  | element js x hx _ ih => exact .element js x hx ih
  | member ms k x hx _ ih => exact .member ms k x hx ih

theorem Child.sub {env : Env} {t t' : Ty} {j j' : Json} (h : Child env t j t' j') : Sub j' j := by
  cases h with
  | vec _ js _ hm => exact .element js _ hm .self
  | arr _ _ js _ hm => exact .element js _ hm .self
  | set _ js _ hm => exact .element js _ hm .self
  | map _ _ ms p hm => exact .member ms p.1 p.2 hm .self
  | dict _ js _ hm => exact .element js _ hm .self
  | tuple _ js i _ _ _ h2 => exact .element js _ (List.mem_of_getElem? h2) .self
  | variant => exact .self
  | cls _ ms m _ _ _ h2 => exact .member ms m.name _ (findMember_mem h2) .self
  | uptr => exact .self

theorem Part.sub {env : Env} {t t' : Ty} {j j' : Json} (h : Part env t j t' j') : Sub j' j := by
  induction h with
  | self => exact .self
  | child _ _ _ _ _ hc ih => exact Sub.trans hc.sub ih

theorem LeafAt.child {env : Env} {p : Prim} {j' : Json} {t t1 : Ty} {j j1 : Json} (hc : Child env t j t1 j1) (h : LeafAt env p j' t1 j1) : LeafAt env p j' t j := by
  cases hc with
  | vec _ js _ hm => exact .vec _ _ _ hm h
  | arr _ _ js _ hm => exact .arr _ _ _ _ hm h
  | set _ js _ hm => exact .set _ _ _ hm h
  | map _ _ ms p hm => exact .map _ _ _ p hm h
  | dict _ js _ hm => exact .dict _ _ _ hm h
  | tuple _ js i _ _ h1 h2 => exact .tuple _ _ i _ _ h1 h2 h
  | variant _ _ _ hm => exact .variant _ _ _ hm h
  | cls _ ms m _ _ h1 h2 => exact .cls _ _ m _ h1 (findMember_mem h2) h
  | uptr => exact .uptr _ _ h

theorem LeafAt.part {env : Env} {p : Prim} {j' : Json} {t t1 : Ty} {j j1 : Json} (hp : Part env t j t1 j1) (h : LeafAt env p j' t1 j1) : LeafAt env p j' t j := by
  induction hp with
  | self => exact h
  | child _ _ _ _ _ hc ih => exact ih (.child hc h)

/-- A valid document with plain keys and numbers in range is one of those on which the readers agree. -/
theorem valid_common {env : Env} {D : Defs} (hp : ∀ c, PlainName (className env c)) (hdist : env.DistinctNames) (version : Option Str) (s0 : Schema)
    {t : Ty} {doc : Json} {s : Schema} (hd : Desc env D t s) (hv : JsonSchema.Verdict (schemaDoc version D s0) s.json doc true)
    (hnv : ∀ t' j', Part env t doc t' j' → ∀ ts, t' ≠ .variant ts) (hk : PlainKeys doc) (hr : Fitting env t doc) : Common env t doc := by
  have hparts : ∀ t' j', Part env t doc t' j' → ∃ s', Desc env D t' s' ∧ JsonSchema.Verdict (schemaDoc version D s0) s'.json j' true := by
    intro t' j' h
    induction h with
    | self => exact ⟨s, hd, hv⟩
    | child t1 j1 t2 j2 h1 hc ih =>
      obtain ⟨s', hd', hv'⟩ := ih
      exact child_valid hp hdist version s0 hd' hv' hc (hnv t1 j1 h1)
  refine ⟨fun c fields h => ?_, fun o t' fields h => ?_, fun f x h => ?_⟩
  · obtain ⟨s', hd', hv'⟩ := hparts _ _ h
    obtain ⟨ps, ms, he, hn, -, hj, hreq⟩ := class_valid hp version s0 hd' c rfl _ hv'
    cases he
    refine ⟨(hk _ h.sub).1, fun k hk => ?_, hreq⟩
    obtain ⟨q, hq, rfl⟩ := List.mem_map.1 hk
    obtain ⟨s, hs, -⟩ := hj q hq
    rw [← hn]
    exact List.mem_map.2 ⟨_, lookup_self_mem hs, rfl⟩
  · exact ⟨(hk _ h.sub).2, .inl (hk _ h.sub).1⟩
  · have hf := hr (.flt f) (.num x) (.part h .prim)
    cases x with
    | int v =>
      have hf' : v.natAbs < 2 ^ f.digits := hf
      simp [floatMeaning, hf']
    | dbl d =>
      cases f with
      | double => simp [floatMeaning]
      | float =>
        have hf' : withinRange .float d = true := hf
        simp [floatMeaning, hf']

end Verif.Core
