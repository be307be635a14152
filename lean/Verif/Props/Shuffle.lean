import Verif.Shuffle
import Verif.Props.SchemaExact
import Verif.Props.ReadExact
import Verif.Props.Message

/-!
# C122: the alternatives of a variant may be put in another order

The specification is `Shuffled` (the same type with the alternatives of its variants in another order, at any depth) and what the readers, the
generator and a validator return for the two programs.
-/

namespace Verif.Demo
open Verif.Core Verif.Numeric Verif.Shuffle

/-- A type with three alternatives, with the last one in front. -/
def turn : Ty → Ty
  | .variant [a, b, c] => .variant [c, a, b]
  | t => t

/-- `turn` for the type of a member. -/
def turnMember (m : Member) : Member := { m with ty := turn m.ty }

/-- The program in which all members have their types so changed: `choice` of `Shape` becomes
`std::variant<std::vector<int>, int, std::string>`. -/
def turnedEnv (env : Env) : Env := { env with classes := fun c => { env.classes c with members := (env.classes c).members.map turnMember } }

end Verif.Demo

namespace Verif.Props
open Verif.Core Verif.Numeric Verif.Demo Verif.Shuffle

theorem shuffled_refl (t : Ty) : Shuffled t t :=
  match t with
  | .prim p => .prim p
  | .vec t => .vec _ _ (shuffled_refl t)
  | .arr n t => .arr n _ _ (shuffled_refl t)
  | .set t => .set _ _ (shuffled_refl t)
  | .map o t => .map o _ _ (shuffled_refl t)
  | .dict t => .dict _ _ (shuffled_refl t)
  | .tuple ts => .tuple _ _ rfl fun i t t' h h' => by
      have hm := List.mem_of_getElem? h
      rw [h] at h'
      cases h'
      exact shuffled_refl t
  | .variant ts => .variant _ _ id id rfl (fun _ h => ⟨h, rfl⟩) (fun _ h => ⟨h, rfl⟩) fun i t t' h h' => by
      have hm := List.mem_of_getElem? h
      rw [id, h] at h'
      cases h'
      exact shuffled_refl t
  | .cls c => .cls c
  | .uptr t => .uptr _ _ (shuffled_refl t)
  | .sptr t => .sptr _ _ (shuffled_refl t)
termination_by sizeOf t
decreasing_by all_goals first | (have := List.sizeOf_lt_of_mem hm; simp; omega) | simp

theorem turn_shuffled (t : Ty) : Shuffled t (turn t) := by
  unfold turn
  split
  · rename_i a b c
    refine .variant _ _ (fun i => if i = 2 then 0 else i + 1) (fun i => if i = 0 then 2 else i - 1) rfl (fun i hi => ?_) (fun i hi => ?_) fun i t t' h h' => ?_
    · simp only [List.length_cons, List.length_nil] at hi ⊢
      split <;> simp <;> omega
    · simp only [List.length_cons, List.length_nil] at hi ⊢
      split
      · subst i; simp
      · refine ⟨by omega, ?_⟩
        rw [if_neg (by omega)]
        omega
    · match i with
      | 0 => cases h; cases h'; exact shuffled_refl _
      | 1 => cases h; cases h'; exact shuffled_refl _
      | 2 => cases h; cases h'; exact shuffled_refl _
      | _ + 3 => cases h
  · exact shuffled_refl t

theorem turned_members (env : Env) (c : Nat) : (turnedEnv env).members c = (env.members c).map turnMember := rfl

theorem turned_classes (env : Env) : ShuffledClasses env (turnedEnv env) := fun c => by
  rw [turned_members]
  refine ⟨by simp, fun k m m' h h' => ?_⟩
  rw [List.getElem?_map, h] at h'
  cases h'
  exact ⟨rfl, rfl, turn_shuffled m.ty⟩

mutual
theorem calm_clk {env env' : Env} (h : env.clk = env'.clk) : ∀ j, Calm env j → Calm env' j
  | .null, _ | .bool _, _ | .num _, _ => trivial
  | .str s, hc => by rw [Calm, CalmStr] at hc ⊢; rw [← h]; exact hc
  | .arr js, hc => by rw [Calm] at hc ⊢; exact calmAll_clk h js hc
  | .obj ms, hc => by rw [Calm] at hc ⊢; exact calmFields_clk h ms hc

theorem calmAll_clk {env env' : Env} (h : env.clk = env'.clk) : ∀ js, CalmAll env js → CalmAll env' js
  | [], _ => trivial
  | j :: js, hc => ⟨calm_clk h j hc.1, calmAll_clk h js hc.2⟩

theorem calmFields_clk {env env' : Env} (h : env.clk = env'.clk) : ∀ ms, CalmFields env ms → CalmFields env' ms
  | [], _ => trivial
  | (_, j) :: ms, hc => ⟨calm_clk h j hc.1, calmFields_clk h ms hc.2⟩
end

/-! ## C122 -/

/-- **C122, types without shared pointers.** If the alternatives of variants are put in another order, anywhere in the types of the program, both readers
accept the same documents as before. -/
theorem C122_verdict (env env' : Env) (hu : env.Unshared) (hu' : env'.Unshared) (hclk : env.clk = env'.clk) (hs : ShuffledClasses env env') (t t' : Ty)
    (ht : t.unshared = true) (ht' : t'.unshared = true) (h : Shuffled t t') (root : Json) (hc : Calm env root) (target target' : Val) (next next' : Nat) :
    ((∃ v, deserializeBool env t root target next = some (true, v)) ↔ ∃ v, deserializeBool env' t' root target' next' = some (true, v)) ∧
    ((∃ v, deserializeBool env t root target next = some (false, v)) ↔ ∃ v, deserializeBool env' t' root target' next' = some (false, v)) ∧
    ((∃ v, deserializeThrow env t root next = .returned v) ↔ ∃ v, deserializeThrow env' t' root next' = .returned v) ∧
    ((∃ path e, deserializeThrow env t root next = .threw path e) ↔ ∃ path e, deserializeThrow env' t' root next' = .threw path e) := by
  have hc' := calm_clk hclk root hc
  have b := C32_verdict env hu t ht root hc target next
  have b' := C32_verdict env' hu' t' ht' root hc' target' next'
  have x := C33_verdict env hu t ht root hc next
  have x' := C33_verdict env' hu' t' ht' root hc' next'
  have r := refused_shuffled_iff hclk hs false h root
  have r' := refused_shuffled_iff hclk hs true h root
  exact ⟨b.2.trans ((not_congr r).trans b'.2.symm), b.1.trans (r.trans b'.1.symm), x.2.trans ((not_congr r').trans x'.2.symm), x.1.trans (r'.trans x'.1.symm)⟩

/-- **C122 for all types** on documents without references.

Missing: documents with references. -/
theorem C122_shared_partial (env env' : Env) (hclk : env.clk = env'.clk) (hs : ShuffledClasses env env') (t t' : Ty)
    (h : Shuffled t t') (root : Json) (hn : root.noRef) (hc : Calm env root) (target target' : Val) (next next' : Nat) :
    ((∃ v, deserializeBool env t root target next = some (true, v)) ↔ ∃ v, deserializeBool env' t' root target' next' = some (true, v)) ∧
    ((∃ v, deserializeBool env t root target next = some (false, v)) ↔ ∃ v, deserializeBool env' t' root target' next' = some (false, v)) ∧
    ((∃ v, deserializeThrow env t root next = .returned v) ↔ ∃ v, deserializeThrow env' t' root next' = .returned v) ∧
    ((∃ path e, deserializeThrow env t root next = .threw path e) ↔ ∃ path e, deserializeThrow env' t' root next' = .threw path e) := by
  have hc' := calm_clk hclk root hc
  have b := C32_shared_verdict env t root hn hc target next
  have b' := C32_shared_verdict env' t' root hn hc' target' next'
  have x := C33_shared_verdict env t root hn hc next
  have x' := C33_shared_verdict env' t' root hn hc' next'
  have r := refused_shuffled_iff (env := env.lower) (env' := env'.lower) hclk hs.lower false h.lower root
  have r' := refused_shuffled_iff (env := env.lower) (env' := env'.lower) hclk hs.lower true h.lower root
  exact ⟨b.2.trans ((not_congr r).trans b'.2.symm), b.1.trans (r.trans b'.1.symm), x.2.trans ((not_congr r').trans x'.2.symm), x.1.trans (r'.trans x'.1.symm)⟩

/-- `[[1, 2], "text", 3]` -/
def mixedDoc : Json := .arr [.arr [.num (.int 1), .num (.int 2)], .str (lit "text"), .num (.int 3)]

theorem mixedDoc_calm (env : Env) (h : env.clk = plainEnv.clk) : Calm env mixedDoc := by
  refine calm_clk h.symm _ ?_
  simp only [mixedDoc, Calm, CalmAll, CalmStr, and_true, true_and, ne_eq]
  decide +kernel

example (target : Val) (next : Nat) : (∃ v, deserializeBool (turnedEnv plainEnv) (.vec (.variant [.vec tInt, tInt, tStr])) mixedDoc target next = some (true, v)) ∧
    ∃ v, deserializeThrow (turnedEnv plainEnv) (.vec (.variant [.vec tInt, tInt, tStr])) mixedDoc next = .returned v := by
  have hu : (turnedEnv plainEnv).Unshared := by
    intro c m hm
    rw [turned_members] at hm
    obtain ⟨m, hm0, rfl⟩ := List.mem_map.1 hm
    have := plainEnv_unshared c m hm0
    show (turn m.ty).unshared = true
    unfold turn
    split
    · rename_i a b d heq
      rw [heq, Ty.unshared, Ty.unshareds_iff] at this
      rw [Ty.unshared, Ty.unshareds_iff]
      intro t ht
      exact this t (by simp only [List.mem_cons] at ht ⊢; rcases ht with h | h | h | h <;> simp_all)
    · exact this
  have h := C122_verdict plainEnv (turnedEnv plainEnv) plainEnv_unshared hu rfl (turned_classes plainEnv) (.vec (.variant [tInt, tStr, .vec tInt])) _
    (by decide) (by decide) (.vec _ _ (turn_shuffled _)) mixedDoc (mixedDoc_calm _ rfl) target target next next
  exact ⟨h.1.1 ⟨_, rfl⟩, h.2.2.1.1 ⟨_, rfl⟩⟩

example (target : Val) (next : Nat) : ∃ v, deserializeThrow (turnedEnv schemaEnv) (.vec (.variant [.vec tInt, .sptr tInt, tStr])) mixedDoc next = .returned v :=
  (C122_shared_partial schemaEnv (turnedEnv schemaEnv) rfl (turned_classes schemaEnv) (.vec (.variant [.sptr tInt, tStr, .vec tInt])) _
    (.vec _ _ (turn_shuffled _)) mixedDoc (by simp [mixedDoc, Json.noRef, Json.noRefAll]) (mixedDoc_calm _ rfl) target target next next).2.2.1.1 ⟨_, rfl⟩

/-- **C122, the error.** What cannot be read is refused with the same error at the same place. -/
theorem C122_error (env env' : Env) (hu : env.Unshared) (hu' : env'.Unshared) (hclk : env.clk = env'.clk) (hs : ShuffledClasses env env') (t t' : Ty)
    (ht : t.unshared = true) (ht' : t'.unshared = true) (h : Shuffled t t') (root : Json) (hc : Calm env root) (next next' : Nat) (path : Str) (e : Err) :
    deserializeThrow env t root next = .threw path e ↔ deserializeThrow env' t' root next' = .threw path e := by
  rw [C81_first_failure env hu t ht root hc next path e, C81_first_failure env' hu' t' ht' root (calm_clk hclk root hc) next' path e]
  exact exists_congr fun rel => and_congr ⟨fun hf => first_shuffled hclk hs hf _ h, fun hf => first_shuffled hclk.symm hs.symm hf _ h.symm⟩ Iff.rfl

/-- **C122, the error, for all types** on documents without references.

Missing: documents with references. -/
theorem C122_shared_error_partial (env env' : Env) (hclk : env.clk = env'.clk) (hs : ShuffledClasses env env') (t t' : Ty) (h : Shuffled t t') (root : Json)
    (hn : root.noRef) (hc : Calm env root) (next next' : Nat) (path : Str) (e : Err) :
    deserializeThrow env t root next = .threw path e ↔ deserializeThrow env' t' root next' = .threw path e := by
  rw [C81_shared_first_failure env t root hn hc next path e, C81_shared_first_failure env' t' root hn (calm_clk hclk root hc) next' path e]
  exact exists_congr fun rel => and_congr ⟨fun hf => first_shuffled (env := env.lower) (env' := env'.lower) hclk hs.lower hf _ h.lower,
    fun hf => first_shuffled (env := env'.lower) (env' := env.lower) hclk.symm hs.symm.lower hf _ h.symm.lower⟩ Iff.rfl

/-- `["text", 3, ["text"]]` -/
def badMixed : Json := .arr [.str (lit "text"), .num (.int 3), .arr [.str (lit "text")]]

theorem badMixed_calm (env : Env) (h : env.clk = plainEnv.clk) : Calm env badMixed := by
  refine calm_clk h.symm _ ?_
  simp only [badMixed, Calm, CalmAll, CalmStr, and_true, true_and, ne_eq]
  decide +kernel

example (next : Nat) : deserializeThrow plainEnv (.vec (.variant [.vec tInt, tInt, tStr])) badMixed next = .threw (lit "/2") .noAlternative :=
  (C122_error plainEnv plainEnv plainEnv_unshared plainEnv_unshared rfl (fun c => ⟨rfl, fun k m m' h h' => by
      rw [h] at h'; cases h'; exact ⟨rfl, rfl, shuffled_refl _⟩⟩) (.vec (.variant [tInt, tStr, .vec tInt])) _
    (by decide) (by decide) (.vec _ _ (turn_shuffled _)) badMixed (badMixed_calm _ rfl) next next _ _).1 rfl

example (next : Nat) : deserializeThrow (turnedEnv schemaEnv) (.vec (.variant [.vec tInt, .sptr tInt, tStr])) badMixed next = .threw (lit "/2") .noAlternative :=
  (C122_shared_error_partial schemaEnv (turnedEnv schemaEnv) rfl (turned_classes schemaEnv) (.vec (.variant [.sptr tInt, tStr, .vec tInt])) _
    (.vec _ _ (turn_shuffled _)) badMixed (by simp [badMixed, Json.noRef, Json.noRefAll]) (badMixed_calm _ rfl) next next _ _).1 rfl

/-- **C122, validity.** The schemas of the two programs have the same valid and the same invalid documents. -/
theorem C122_schema (env env' : Env) (hn : env.NamesDiffer) (hn' : env'.NamesDiffer) (hp : ∀ c, PlainName (className env c)) (hp' : ∀ c, PlainName (className env' c))
    (hs : ShuffledClasses env env') (version version' : Option Str) (fuel fuel' : Nat) (t t' : Ty) (h : Shuffled t t') (s s' : Schema) (D D' : Defs)
    (hb : buildSchema env fuel t = some (s, D)) (hb' : buildSchema env' fuel' t' = some (s', D')) (doc : Json) :
    (ValidAgainst (schemaDoc version D s) doc ↔ ValidAgainst (schemaDoc version' D' s') doc) ∧
    (InvalidAgainst (schemaDoc version D s) doc ↔ InvalidAgainst (schemaDoc version' D' s') doc) := by
  have r := meets_shuffled hs _ doc (Nat.le_refl _) t t' h
  exact ⟨(C112_valid env hn hp version fuel t s D hb doc).trans (r.trans (C112_valid env' hn' hp' version' fuel' t' s' D' hb' doc).symm),
    (C112_invalid env hn hp version fuel t s D hb doc).trans ((not_congr r).trans (C112_invalid env' hn' hp' version' fuel' t' s' D' hb' doc).symm)⟩

theorem turned_names : (turnedEnv schemaEnv).NamesDiffer := fun c c' h => by
  have := schema_names c c' h
  simp only [turnedEnv, this]

/-- `Shape` and `Shape` with another order of the alternatives of `choice`: the schemas are different, the valid documents are not. -/
example : ∃ s D s' D' j, buildSchema schemaEnv 4 (.cls 1) = some (s, D) ∧ buildSchema (turnedEnv schemaEnv) 4 (.cls 1) = some (s', D') ∧
    ValidAgainst (schemaDoc none D s) j ∧ ValidAgainst (schemaDoc none D' s') j := by
  obtain ⟨s, D, h, -⟩ := shape_schema
  obtain ⟨j, -, h2⟩ := C51_written_valid_partial schemaEnv schema_fair schemaHeap _ schema_classes schema_less schema_names schema_plain
    none 4 (.cls 1) (by simp [Describable]) s D h shapeVal ty_shape rfl (by decide) []
  exact ⟨s, D, _, _, j, h, rfl, h2, (C122_schema schemaEnv (turnedEnv schemaEnv) schema_names turned_names schema_plain schema_plain
    (turned_classes schemaEnv) none none 4 4 (.cls 1) (.cls 1) (.cls 1) s _ D _ h rfl j).1.1 h2⟩

/-- **C122, the value.** If the document can be read as one of the alternatives only, the variant holds the same alternative with the same value
as before; only its index is another one.

Missing: documents that can be read as several alternatives (`C122_overlap`); variants inside the alternatives; shared pointers. -/
theorem C122_value_partial (env : Env) (hu : env.Unshared) (ts ts' : List Ty) (ht : ∀ t ∈ ts, t.unshared = true) (hts : ∀ t, t ∈ ts ↔ t ∈ ts') (root : Json)
    (hc : Calm env root) (target target' : Val) (next : Nat)
    (hone : ∀ t ∈ ts, ∀ u ∈ ts, (∃ v, deserializeBool env t root (env.fresh t) next = some (true, v)) →
      (∃ v, deserializeBool env u root (env.fresh u) next = some (true, v)) → t = u)
    (w : Val) (h : deserializeBool env (.variant ts) root target next = some (true, w)) :
    ∃ (i k : Nat) (t : Ty) (v : Val), ts[i]? = some t ∧ ts'[k]? = some t ∧ w = .alt i v ∧
      deserializeBool env (.variant ts') root target' next = some (true, .alt k v) ∧ deserializeThrow env (.variant ts') root next = .returned (.alt k v) := by
  have ht' : ∀ t ∈ ts', t.unshared = true := fun t h => ht t ((hts t).2 h)
  obtain ⟨i, t, v, hi, -, hv, rfl⟩ := ((C36_chosen env hu ts ht root hc target next).1 w).1 h
  have hti := List.mem_of_getElem? hi
  have key : ∀ tg, ∃ k, ts'[k]? = some t ∧ deserializeBool env (.variant ts') root tg next = some (true, .alt k v) := by
    intro tg
    have hc36 := C36_chosen env hu ts' ht' root hc tg next
    have hnr : ¬ Refused env false t root := (C32_verdict env hu t (ht t hti) root hc (env.fresh t) next).2.1 ⟨v, hv⟩
    have hacc : ∃ w', deserializeBool env (.variant ts') root tg next = some (true, w') := by
      rcases bool_judged env hu (.variant ts') ((Ty.unshareds_iff ts').2 ht') root hc tg next with ⟨-, w', hw'⟩ | ⟨-, w', hw'⟩
      · exact absurd (hc36.2.2.1.1 ⟨w', hw'⟩ t ((hts t).1 hti)) hnr
      · exact ⟨w', hw'⟩
    obtain ⟨w', hw'⟩ := hacc
    obtain ⟨k, u, x, hk, -, hx, rfl⟩ := (hc36.1 w').1 hw'
    have hut := hone u ((hts u).2 (List.mem_of_getElem? hk)) t hti ⟨x, hx⟩ ⟨v, hv⟩
    subst hut
    rw [hv] at hx
    cases hx
    exact ⟨k, hk, hw'⟩
  obtain ⟨k, hk, hb⟩ := key (env.fresh (.variant ts'))
  obtain ⟨k', hk', hb'⟩ := key target'
  have hth := ((C36_chosen env hu ts' ht' root hc target' next).2.1 (.alt k v)).2 hb
  have hkk : k = k' := by
    obtain ⟨a, ta, va, ha, fa, -, ea⟩ := ((C36_chosen env hu ts' ht' root hc (env.fresh (.variant ts')) next).1 _).1 hb
    obtain ⟨b, tb, vb, hb2, fb, -, eb⟩ := ((C36_chosen env hu ts' ht' root hc target' next).1 _).1 hb'
    cases ea
    cases eb
    have hnr : ¬ Refused env false t root := (C32_verdict env hu t (ht t hti) root hc (env.fresh t) next).2.1 ⟨v, hv⟩
    rcases Nat.lt_trichotomy k k' with hlt | heq | hlt
    · exact absurd (fb k t hlt hk) hnr
    · exact heq
    · exact absurd (fa k' t hlt hk') hnr
  subst hkk
  exact ⟨i, k, t, v, hi, hk, rfl, hb', hth⟩

example (target : Val) (next : Nat) : deserializeBool plainEnv (.variant [.vec tInt, tInt, tStr]) (.num (.int 3)) target next = some (true, .alt 1 (.prim (.int 3))) := by
  obtain ⟨i, k, t, v, hi, hk, hw, hb, -⟩ := C122_value_partial plainEnv plainEnv_unshared [tInt, tStr, .vec tInt] [.vec tInt, tInt, tStr] (by decide)
    (fun t => by simp only [List.mem_cons, List.not_mem_nil, or_false]; exact ⟨fun h => by rcases h with h | h | h <;> simp [h], fun h => by rcases h with h | h | h <;> simp [h]⟩)
    (.num (.int 3)) trivial target target next
    (fun t h u h' ⟨a, ha⟩ ⟨b, hb⟩ => by
      simp only [List.mem_cons, List.not_mem_nil, or_false] at h h'
      rcases h with rfl | rfl | rfl <;> rcases h' with rfl | rfl | rfl <;> first | rfl | (cases ha; done) | (cases hb))
    (.alt 0 (.prim (.int 3))) rfl
  cases hw
  cases hi
  match k, hk with
  | 1, _ => exact hb
  | 0, hk => cases hk
  | 2, hk => cases hk
  | _ + 3, hk => cases hk

/-- **C122, negation.** A document that fits two alternatives is read as the one that comes first: the order of the alternatives decides the value. -/
theorem C122_overlap (target : Val) (next : Nat) :
    deserializeBool plainEnv (.variant [tInt, tDbl]) (.num (.int 1)) target next = some (true, .alt 0 (.prim (.int 1))) ∧
    deserializeBool plainEnv (.variant [tDbl, tInt]) (.num (.int 1)) target next = some (true, .alt 0 (.prim (.flt (.fin false 0 0)))) :=
  ⟨by with_unfolding_all rfl, by with_unfolding_all rfl⟩

end Verif.Props
