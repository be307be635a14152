import Verif.SchemaLemmas
import Verif.ReadExact
import Verif.ReadShared

/-!
# Types with the same schema

Which documents the DOM reader refuses is determined by the schema, as far as there are no enumerations and no members with default values.
-/

namespace Verif.Core
open Verif.Numeric Verif.EnumConv

mutual
/-- There are no enumerations in the schema. -/
def Schema.enumless : Schema → Bool
  | .ref _ => true
  | .fundamental _ _ _ => true
  | .signed _ _ => true
  | .unsigned _ => true
  | .enumeration _ => false
  | .items s _ _ => s.enumless
  | .tuple ss => Schema.enumlessAll ss
  | .object ps _ => Schema.enumlessProps ps
  | .mapping s => s.enumless
  | .oneOf ss => Schema.enumlessAll ss

/-- `enumless` for lists. -/
def Schema.enumlessAll : List Schema → Bool
  | [] => true
  | s :: ss => s.enumless && Schema.enumlessAll ss

/-- `enumless` for the properties of a class. -/
def Schema.enumlessProps : List (Str × Schema) → Bool
  | [] => true
  | (_, s) :: ps => s.enumless && Schema.enumlessProps ps
end

/-- No class has members with a default value; the schema generator does not compile for them. -/
def Env.NoDefaults (env : Env) : Prop := ∀ c, ∀ m ∈ env.members c, m.kind ≠ .default

theorem enumlessAll_get {ss : List Schema} (h : Schema.enumlessAll ss = true) {i : Nat} {s : Schema} (hi : ss[i]? = some s) : s.enumless = true := by
  induction ss generalizing i with
  | nil => simp at hi
  | cons x ss ih =>
    simp only [Schema.enumlessAll, Bool.and_eq_true] at h
    cases i with
    | zero => simp only [List.getElem?_cons_zero, Option.some.injEq] at hi; subst hi; exact h.1
    | succ i => exact ih h.2 (by simpa using hi)

theorem enumlessProps_get {ps : List (Str × Schema)} (h : Schema.enumlessProps ps = true) {i : Nat} {p : Str × Schema} (hi : ps[i]? = some p) :
    p.2.enumless = true := by
  induction ps generalizing i with
  | nil => simp at hi
  | cons x ps ih =>
    obtain ⟨k, x⟩ := x
    simp only [Schema.enumlessProps, Bool.and_eq_true] at h
    cases i with
    | zero => simp only [List.getElem?_cons_zero, Option.some.injEq] at hi; subst hi; exact h.1
    | succ i => exact ih h.2 (by simpa using hi)

/-! ## Leaves -/

theorem datetime_rejected (clk clk' : Nat) (s : Str) (h : DateTime.parseDatetime clk s = .rejected) : DateTime.parseDatetime clk' s = .rejected := by
  unfold DateTime.parseDatetime at h ⊢
  split <;> rename_i h1
  · rfl
  · rw [if_neg h1] at h
    split <;> rename_i h2
    · rfl
    · rw [if_neg h2] at h
      split at h
      · split <;> rename_i h3
        · rfl
        · rw [if_neg h3] at h
          split <;> rename_i h4
          · rfl
          · rw [if_neg h4] at h
            revert h
            generalize DateTime.makeDatetime _ _ _ _ _ _ _ = r
            cases r <;> intro h <;> cases h
      · rfl

theorem date_rejected (clk clk' : Nat) (s : Str) (h : DateTime.parseDate clk s = .rejected) : DateTime.parseDate clk' s = .rejected := by
  unfold DateTime.parseDate at h ⊢
  split <;> rename_i h1
  · rfl
  · rw [if_neg h1] at h
    split <;> rename_i h2
    · rfl
    · rw [if_neg h2] at h
      split at h
      · split <;> rename_i h3
        · rw [if_pos h3] at h
          revert h
          generalize DateTime.makeDatetime _ _ _ _ _ _ _ = r
          cases r <;> intro h <;> cases h
        · rfl
      · rfl

theorem readDate_rejected (clk clk' : Nat) (s : Str) (h : DateTime.readDate clk s = .rejected) : DateTime.readDate clk' s = .rejected := by
  have h1 : DateTime.parseDate clk s = .rejected := by
    unfold DateTime.readDate at h
    revert h
    cases DateTime.parseDate clk s <;> intro h <;> first | rfl | cases h
  simp only [DateTime.readDate, date_rejected clk clk' s h1]

theorem intTy_of_max {t t' : IntTy} (hs : t.signed = t'.signed) (h : t.max = t'.max) : t = t' := by
  obtain ⟨w, s⟩ := t
  obtain ⟨w', s'⟩ := t'
  simp only at hs
  subst hs
  cases w <;> cases w' <;> first | rfl | (cases s <;> exact absurd h (by decide))

/-- Types of leaves with the same schema take the same documents. -/
theorem leaf_same (env env' : Env) (p p' : Prim) (h : primSchema p = primSchema p') (he : (primSchema p).enumless = true) (j : Json) (hc : Calm env j)
    (hn : ∀ pv, ¬ LeafReads env p j pv) : ∀ pv, ¬ LeafReads env' p' j pv := by
  intro pv hr
  have hint : ∀ t t' : IntTy, primSchema (.int t) = primSchema (.int t') → t = t' := by
    intro t t' h
    simp only [primSchema] at h
    cases hs : t.signed <;> cases hs' : t'.signed <;> simp only [hs, hs', if_true, Bool.false_eq_true, if_false] at h
    · simp only [Schema.unsigned.injEq] at h; exact intTy_of_max (by rw [hs, hs']) h
    · cases h
    · cases h
    · simp only [Schema.signed.injEq] at h; exact intTy_of_max (by rw [hs, hs']) h.2
  have hni : ∀ t : IntTy, ∀ a b c, primSchema (.int t) ≠ .fundamental a b c := by
    intro t a b c h
    simp only [primSchema] at h
    split at h <;> cases h
  have hne : ∀ t : IntTy, ∀ a, primSchema (.int t) ≠ .enumeration a := by
    intro t a h
    simp only [primSchema] at h
    split at h <;> cases h
  cases p' with
  | int t' =>
    cases p with
    | int t => cases hint t t' h; cases hr with | int _ v hv => exact hn _ (.int _ v hv)
    | enumInt _ => cases he
    | enumStr _ => cases he
    | _ => exact hni _ _ _ _ h.symm
  | enumInt t' =>
    cases p with
    | int t => exact hne _ _ h
    | enumInt _ => cases he
    | enumStr _ => cases he
    | _ => cases h
  | enumStr t' =>
    cases p with
    | int t => exact hne _ _ h
    | enumInt _ => cases he
    | enumStr _ => cases he
    | _ => cases h
  | null =>
    cases p <;> first | exact hni _ _ _ _ h | (simp [primSchema, lit] at h; done) | skip
    cases hr; exact hn _ .null
  | bool =>
    cases p <;> first | exact hni _ _ _ _ h | (simp [primSchema, lit] at h; done) | skip
    cases hr; exact hn _ (.bool _)
  | flt t' =>
    cases p <;> first | exact hni _ _ _ _ h | (simp [primSchema, lit] at h; done) | skip
    cases hr; exact hn _ (.flt _ _)
  | str =>
    cases p <;> first | exact hni _ _ _ _ h | (simp [primSchema, lit] at h; done) | skip
    cases hr; exact hn _ (.str _)
  | bytes =>
    cases p <;> first | exact hni _ _ _ _ h | (simp [primSchema, lit] at h; done) | skip
    cases hr with | bytes s bs hb => exact hn _ (.bytes s bs hb)
  | time =>
    cases p <;> first | exact hni _ _ _ _ h | (simp [primSchema, lit] at h; done) | skip
    cases hr with
    | time s t ht =>
      have : DateTime.parseDatetime env.clk s = .rejected := by
        have h2 := hc.1
        cases hp : DateTime.parseDatetime env.clk s with
        | rejected => rfl
        | ok t => exact (hn _ (.time s t hp)).elim
        | overflow => exact (h2 hp).elim
      rw [datetime_rejected _ env'.clk s this] at ht
      cases ht
  | date =>
    cases p <;> first | exact hni _ _ _ _ h | (simp [primSchema, lit] at h; done) | skip
    cases hr with
    | date s y m d ht =>
      have : DateTime.readDate env.clk s = .rejected := by
        have h2 := hc.2
        cases hp : DateTime.readDate env.clk s with
        | rejected => rfl
        | ok y m d => exact (hn _ (.date s y m d hp)).elim
        | overflow => exact (h2 hp).elim
      rw [readDate_rejected _ env'.clk s this] at ht
      cases ht

/-! ## The type at the top -/

/-- The type is no pointer. -/
def Ty.bare : Ty → Bool
  | .uptr _ => false
  | .sptr _ => false
  | _ => true

/-- A pointer has the schema of what it points to, and refuses the same documents. -/
theorem desc_strip {env : Env} {D : Defs} {t : Ty} {s : Schema} (h : Desc env D t s) :
    ∃ t0, t0.bare = true ∧ Desc env D t0 s ∧ ∀ exc j, Refused env.lower exc t0.lower j → Refused env.lower exc t.lower j := by
  induction h with
  | uptr t s _ ih =>
    obtain ⟨t0, h1, h2, h3⟩ := ih
    exact ⟨t0, h1, h2, fun exc j hr => .uptr exc _ j (h3 exc j hr)⟩
  | sptr t s _ ih =>
    obtain ⟨t0, h1, h2, h3⟩ := ih
    exact ⟨t0, h1, h2, fun exc j hr => .uptr exc _ j (h3 exc j hr)⟩
  | prim p => exact ⟨_, rfl, .prim p, fun _ _ h => h⟩
  | vec t s h _ => exact ⟨_, rfl, .vec t s h, fun _ _ h => h⟩
  | arr n t s h _ => exact ⟨_, rfl, .arr n t s h, fun _ _ h => h⟩
  | set t s h _ => exact ⟨_, rfl, .set t s h, fun _ _ h => h⟩
  | map o t s h _ => exact ⟨_, rfl, .map o t s h, fun _ _ h => h⟩
  | dict t s h _ => exact ⟨_, rfl, .dict t s h, fun _ _ h => h⟩
  | tuple ts ss hl h _ => exact ⟨_, rfl, .tuple ts ss hl h, fun _ _ h => h⟩
  | variant ts ss hl h _ => exact ⟨_, rfl, .variant ts ss hl h, fun _ _ h => h⟩
  | cls c ps hn h _ => exact ⟨_, rfl, .cls c ps hn h, fun _ _ h => h⟩
  | ref c s hl h _ => exact ⟨_, rfl, .ref c s hl h, fun _ _ h => h⟩

/-- What the schemas of leaves are not. -/
theorem primSchema_shape (p : Prim) : (∀ s u n, primSchema p ≠ .items s u n) ∧ (∀ ss, primSchema p ≠ .tuple ss) ∧ (∀ ps rs, primSchema p ≠ .object ps rs) ∧
    (∀ s, primSchema p ≠ .mapping s) ∧ (∀ ss, primSchema p ≠ .oneOf ss) ∧ ∀ r, primSchema p ≠ .ref r := by
  cases p <;> simp only [primSchema] <;> first | (refine ⟨?_, ?_, ?_, ?_, ?_, ?_⟩ <;> intros <;> intro h <;> cases h; done) | skip
  split <;> (refine ⟨?_, ?_, ?_, ?_, ?_, ?_⟩ <;> intros <;> intro h <;> cases h)

theorem desc_prim {env : Env} {D : Defs} {t : Ty} {s : Schema} (hb : t.bare = true) (h : Desc env D t s) (p : Prim) (hs : s = primSchema p) :
    ∃ p', t = .prim p' ∧ primSchema p = primSchema p' := by
  obtain ⟨h1, h2, h3, h4, h5, h6⟩ := primSchema_shape p
  cases h with
  | prim p' => exact ⟨p', rfl, hs.symm⟩
  | vec t s _ => exact (h1 _ _ _ hs.symm).elim
  | arr n t s _ => exact (h1 _ _ _ hs.symm).elim
  | set t s _ => exact (h1 _ _ _ hs.symm).elim
  | map o t s _ => exact (h4 _ hs.symm).elim
  | dict t s _ => exact (h1 _ _ _ hs.symm).elim
  | tuple ts ss hl _ => exact (h2 _ hs.symm).elim
  | variant ts ss hl _ => exact (h5 _ hs.symm).elim
  | cls c ps hn _ => exact (h3 _ _ hs.symm).elim
  | ref c s hl _ => exact (h6 _ hs.symm).elim
  | uptr t s _ => cases hb
  | sptr t s _ => cases hb

theorem desc_items {env : Env} {D : Defs} {t : Ty} {s : Schema} (hb : t.bare = true) (h : Desc env D t s) (s1 : Schema) (u : Bool) (n : Option Nat)
    (hs : s = .items s1 u n) : ∃ t1, Desc env D t1 s1 ∧ t.lower.wantsArray = true ∧
      (∀ exc js j, j ∈ js → Refused env.lower exc t1.lower j → Refused env.lower exc t.lower (.arr js)) ∧
      ∀ k, n = some k → ∀ exc js, js.length ≠ k → Refused env.lower exc t.lower (.arr js) := by
  cases h with
  | prim p => exact ((primSchema_shape p).1 _ _ _ hs).elim
  | vec t s h => cases hs; exact ⟨t, h, rfl, fun exc js j hj hr => .vec exc _ js j hj hr, nofun⟩
  | arr k t s h =>
    cases hs
    exact ⟨t, h, rfl, fun exc js j hj hr => .arr exc k _ js j hj hr, fun k' hk exc js hl => .arrLength exc k _ js (by cases hk; exact hl)⟩
  | set t s h => cases hs; exact ⟨t, h, rfl, fun exc js j hj hr => .set exc _ js j hj hr, nofun⟩
  | dict t s h => cases hs; exact ⟨_, h, rfl, fun exc js j hj hr => .dict exc _ js j hj hr, nofun⟩
  | uptr t s _ => cases hb
  | sptr t s _ => cases hb
  | _ => cases hs

theorem desc_tuple {env : Env} {D : Defs} {t : Ty} {s : Schema} (hb : t.bare = true) (h : Desc env D t s) (ss : List Schema) (hs : s = .tuple ss) :
    ∃ ts, t = .tuple ts ∧ ss.length = ts.length ∧ ∀ (i : Nat) t s, ts[i]? = some t → ss[i]? = some s → Desc env D t s := by
  cases h with
  | prim p => exact ((primSchema_shape p).2.1 _ hs).elim
  | tuple ts ss hl h => cases hs; exact ⟨ts, rfl, hl, h⟩
  | uptr t s _ => cases hb
  | sptr t s _ => cases hb
  | _ => cases hs

theorem desc_oneOf {env : Env} {D : Defs} {t : Ty} {s : Schema} (hb : t.bare = true) (h : Desc env D t s) (ss : List Schema) (hs : s = .oneOf ss) :
    ∃ ts, t = .variant ts ∧ ss.length = ts.length ∧ ∀ (i : Nat) t s, ts[i]? = some t → ss[i]? = some s → Desc env D t s := by
  cases h with
  | prim p => exact ((primSchema_shape p).2.2.2.2.1 _ hs).elim
  | variant ts ss hl h => cases hs; exact ⟨ts, rfl, hl, h⟩
  | uptr t s _ => cases hb
  | sptr t s _ => cases hb
  | _ => cases hs

theorem desc_mapping {env : Env} {D : Defs} {t : Ty} {s : Schema} (hb : t.bare = true) (h : Desc env D t s) (s1 : Schema) (hs : s = .mapping s1) :
    ∃ o t1, t = .map o t1 ∧ Desc env D t1 s1 := by
  cases h with
  | prim p => exact ((primSchema_shape p).2.2.2.1 _ hs).elim
  | map o t s h => cases hs; exact ⟨o, t, rfl, h⟩
  | uptr t s _ => cases hb
  | sptr t s _ => cases hb
  | _ => cases hs

theorem desc_object {env : Env} {D : Defs} {t : Ty} {s : Schema} (hb : t.bare = true) (h : Desc env D t s) (ps : List (Str × Schema)) (rs : List Str)
    (hs : s = .object ps rs) : ∃ c, t = .cls c ∧ ps.map (·.1) = (env.members c).map (·.name) ∧
      (∀ (i : Nat) m p, (env.members c)[i]? = some m → ps[i]? = some p → Desc env D m.ty p.2) ∧
      rs = ((env.members c).filter fun m => m.kind ≠ .optional).map (·.name) := by
  cases h with
  | prim p => exact ((primSchema_shape p).2.2.1 _ _ hs).elim
  | cls c ps hn h => cases hs; exact ⟨c, rfl, hn, h, rfl⟩
  | uptr t s _ => cases hb
  | sptr t s _ => cases hb
  | _ => cases hs

theorem desc_ref {env : Env} {D : Defs} {t : Ty} {s : Schema} (hb : t.bare = true) (h : Desc env D t s) (r : Str) (hs : s = .ref r) :
    ∃ c s1, t = .cls c ∧ r = defRef (className env c) ∧ D.lookup (className env c) = some s1 ∧ Desc env D (.cls c) s1 := by
  cases h with
  | prim p => exact ((primSchema_shape p).2.2.2.2.2 _ hs).elim
  | ref c s hl h => cases hs; exact ⟨c, s, rfl, rfl, hl, h⟩
  | uptr t s _ => cases hb
  | sptr t s _ => cases hb
  | _ => cases hs

/-! ## Classes -/

/-- The definitions are schemas of classes without enumerations. -/
def Defs.Plain (D : Defs) : Prop := ∀ k s, D.lookup k = some s → s.enumless = true ∧ ∃ ps rs, s = .object ps rs

/-- A class and a type with its schema. -/
theorem class_pair {env env' : Env} {D : Defs} (hD : D.Plain) {c : Nat} {t' : Ty} {s : Schema} (he : s.enumless = true) (hb : t'.bare = true)
    (h : Desc env D (.cls c) s) (h' : Desc env' D t' s) :
    ∃ c' ps rs, t' = .cls c' ∧ Schema.enumlessProps ps = true ∧ Desc env D (.cls c) (.object ps rs) ∧ Desc env' D (.cls c') (.object ps rs) := by
  cases hs : s with
  | object ps rs =>
    subst hs
    obtain ⟨c', rfl, -⟩ := desc_object hb h' ps rs rfl
    exact ⟨c', ps, rs, rfl, he, h, h'⟩
  | ref r =>
    subst hs
    obtain ⟨_, s1, e, h1, h2, h3⟩ := desc_ref rfl h r rfl
    cases e
    obtain ⟨c', s1', rfl, h1', h2', h3'⟩ := desc_ref hb h' r rfl
    have hname : className env c = className env' c' := List.append_cancel_left (h1.symm.trans h1')
    rw [hname, h2'] at h2
    cases h2
    obtain ⟨he1, ps, rs, rfl⟩ := hD _ _ h2'
    exact ⟨c', ps, rs, rfl, he1, h3, h3'⟩
  | fundamental _ _ _ => subst hs; cases h
  | _ => subst hs; cases h

/-- Two classes with the same schema have members with the same names and kinds, one by one, with types that have the same schemas. -/
theorem members_pair {env env' : Env} {D : Defs} (hd : env.DistinctNames) (hd' : env'.DistinctNames) (hf : env.NoDefaults) (hf' : env'.NoDefaults)
    {c c' : Nat} {ps : List (Str × Schema)} {rs : List Str} (he : Schema.enumlessProps ps = true) (h : Desc env D (.cls c) (.object ps rs))
    (h' : Desc env' D (.cls c') (.object ps rs)) :
    (env.members c).length = (env'.members c').length ∧
    ∀ (i : Nat) m m', (env.members c)[i]? = some m → (env'.members c')[i]? = some m' →
      m.name = m'.name ∧ m.kind = m'.kind ∧ ∃ s, s.enumless = true ∧ Desc env D m.ty s ∧ Desc env' D m'.ty s := by
  obtain ⟨_, e, h1, h2, h3⟩ := desc_object rfl h ps rs rfl
  cases e
  obtain ⟨_, e, h1', h2', h3'⟩ := desc_object rfl h' ps rs rfl
  cases e
  have hnames := h1.symm.trans h1'
  have hlen : (env.members c).length = (env'.members c').length := by simpa using congrArg List.length hnames
  refine ⟨hlen, fun i m m' hm hm' => ?_⟩
  have hn : m.name = m'.name := by
    have h5 : ((env.members c).map (·.name))[i]? = some m.name := by simp [hm]
    have h6 : ((env'.members c').map (·.name))[i]? = some m'.name := by simp [hm']
    rw [hnames, h6] at h5
    exact (Option.some.inj h5).symm
  have hreq : ∀ (e : Env) (k : Nat), e.DistinctNames → ∀ x ∈ e.members k, x.name ∈ ((e.members k).filter fun m => m.kind ≠ .optional).map (·.name) ↔ x.kind ≠ .optional := by
    intro e k hde x hx
    simp only [List.mem_map, List.mem_filter, decide_eq_true_eq]
    constructor
    · rintro ⟨y, ⟨hy, hk⟩, hxy⟩
      have : y = x := by
        have hnd := hde k
        obtain ⟨a, ha, rfl⟩ := List.mem_iff_getElem.1 hy
        obtain ⟨b, hb, rfl⟩ := List.mem_iff_getElem.1 hx
        have : a = b := by
          refine (List.getElem_inj (h₀ := by simpa using ha) (h₁ := by simpa using hb) hnd).1 ?_
          simpa using hxy
        subst this; rfl
      subst this; exact hk
    · exact fun hk => ⟨x, ⟨hx, hk⟩, rfl⟩
  have hm1 := List.mem_of_getElem? hm
  have hm1' := List.mem_of_getElem? hm'
  have hopt : m.kind ≠ .optional ↔ m'.kind ≠ .optional := by
    rw [← hreq env c hd m hm1, ← hreq env' c' hd' m' hm1', ← h3, ← h3', hn]
  have hk : m.kind = m'.kind := by
    have k1 := hf c m hm1
    have k2 := hf' c' m' hm1'
    cases e1 : m.kind <;> cases e2 : m'.kind <;> rw [e1, e2] at hopt <;> first | rfl | (exact absurd e1 k1) | (exact absurd e2 k2) | (exact (hopt.1 nofun rfl).elim) | (exact (hopt.2 nofun rfl).elim)
  have hi : i < ps.length := by
    have h7 : ps.length = (env.members c).length := by simpa using congrArg List.length h1
    rw [h7]
    exact (List.getElem?_eq_some_iff.1 hm).1
  exact ⟨hn, hk, ps[i].2, enumlessProps_get he (List.getElem?_eq_getElem hi), h2 i m _ hm (List.getElem?_eq_getElem hi),
    h2' i m' _ hm' (List.getElem?_eq_getElem hi)⟩

/-! ## Documents -/

theorem calm_item {env : Env} {js : List Json} (h : Calm env (.arr js)) {j : Json} (hj : j ∈ js) : Calm env j := (CalmAll_iff env js).1 h j hj

theorem calm_found {env : Env} {ms : List (Str × Json)} (h : Calm env (.obj ms)) {k : Str} {i : Nat} {j : Json} (hf : findMember k ms = some (i, j)) :
    Calm env j := by
  exact h.field (findMember_mem hf)

theorem lower_get {env : Env} {c i : Nat} {m : Member} (h : (env.members c)[i]? = some m) : (env.lower.members c)[i]? = some m.lower := by
  rw [Env.lower_members, List.getElem?_map, h]; rfl

/-- A document that is refused for a type is refused for every type with the same schema, also of another program. -/
theorem refused_same {env env' : Env} {D : Defs} (hD : D.Plain) (hd : env.DistinctNames) (hd' : env'.DistinctNames) (hf : env.NoDefaults)
    (hf' : env'.NoDefaults) {exc : Bool} {t : Ty} {j : Json} (hr : Refused env exc t j) : ∀ (s : Schema) (t' : Ty), s.enumless = true → Calm env j →
    Desc env D t s → Desc env' D t' s → Refused env'.lower exc t'.lower j := by
  have hpair := fun {c c' : Nat} {ps : List (Str × Schema)} {rs : List Str} => members_pair (D := D) (c := c) (c' := c') (ps := ps) (rs := rs) hd hd' hf hf'
  have hirr : ∀ {c c' : Nat} {ps : List (Str × Schema)} {rs : List Str}, Schema.enumlessProps ps = true → Desc env D (.cls c) (.object ps rs) →
      Desc env' D (.cls c') (.object ps rs) → ∀ (fields : List (Str × Json)) (pre : List Member) (m : Member) (post : List Member),
      env.members c = pre ++ m :: post → (∀ x ∈ post, Irrelevant fields x) →
      ∃ pre' m' post', env'.members c' = pre' ++ m' :: post' ∧ (∀ x ∈ post', Irrelevant fields x) ∧ m.name = m'.name ∧ m.kind = m'.kind ∧
        ∃ s, s.enumless = true ∧ Desc env D m.ty s ∧ Desc env' D m'.ty s := by
    intro c c' ps rs he h1 h2 fields pre m post hm hpost
    obtain ⟨hl, hp⟩ := hpair he h1 h2
    have hlen : pre.length < (env'.members c').length := by rw [← hl, hm]; simp
    refine ⟨(env'.members c').take pre.length, (env'.members c')[pre.length], (env'.members c').drop (pre.length + 1), ?_, ?_,
      hp pre.length m _ (by rw [hm]; simp) (List.getElem?_eq_getElem hlen)⟩
    · rw [List.getElem_cons_drop, List.take_append_drop]
    · intro x hx
      obtain ⟨k, hk, rfl⟩ := List.mem_iff_getElem.1 hx
      rw [List.length_drop] at hk
      have hk' : pre.length + 1 + k < (env'.members c').length := by omega
      have hk2 : pre.length + 1 + k < (env.members c).length := by omega
      obtain ⟨e1, e2, -⟩ := hp (pre.length + 1 + k) _ _ (List.getElem?_eq_getElem hk2) (List.getElem?_eq_getElem hk')
      have hin : (env.members c)[pre.length + 1 + k] ∈ post := by
        have : (env.members c)[pre.length + 1 + k]? = post[k]? := by
          rw [hm, List.getElem?_append_right (by omega), show pre.length + 1 + k - pre.length = k + 1 by omega, List.getElem?_cons_succ]
        rw [List.getElem?_eq_getElem hk2] at this
        exact List.mem_of_getElem? this.symm
      rw [List.getElem_drop]
      have := hpost _ hin
      rw [Irrelevant, ← e1, ← e2]
      exact this
  have hlow : ∀ {c' : Nat} {fields : List (Str × Json)} {pre' : List Member} {m' : Member} {post' : List Member}, env'.members c' = pre' ++ m' :: post' →
      (∀ x ∈ post', Irrelevant fields x) → env'.lower.members c' = pre'.map Member.lower ++ m'.lower :: post'.map Member.lower ∧
        ∀ x, x ∈ post'.map Member.lower → Irrelevant fields x := by
    intro c' fields pre' m' post' h1 h2
    refine ⟨by rw [Env.lower_members, h1, List.map_append, List.map_cons], fun x hx => ?_⟩
    obtain ⟨y, hy, rfl⟩ := List.mem_map.1 hx
    exact h2 y hy
  induction hr with
  | prim exc p j hn =>
    intro s t' he hc h h'
    obtain ⟨t0, hb, h0, hup⟩ := desc_strip h'
    apply hup
    obtain ⟨_, e, -⟩ := desc_prim rfl h p (by cases h; rfl)
    cases h
    obtain ⟨p', rfl, hpp⟩ := desc_prim hb h0 p rfl
    exact .prim exc p' j (leaf_same env env'.lower p p' hpp he j hc hn)
  | array exc t j hw hj =>
    intro s t' he hc h h'
    obtain ⟨t0, hb, h0, hup⟩ := desc_strip h'
    apply hup
    refine .array exc _ j ?_ hj
    cases h with
    | vec t s _ => obtain ⟨t1, -, h2, -⟩ := desc_items hb h0 _ _ _ rfl; exact h2
    | arr n t s _ => obtain ⟨t1, -, h2, -⟩ := desc_items hb h0 _ _ _ rfl; exact h2
    | set t s _ => obtain ⟨t1, -, h2, -⟩ := desc_items hb h0 _ _ _ rfl; exact h2
    | dict t s _ => obtain ⟨t1, -, h2, -⟩ := desc_items hb h0 _ _ _ rfl; exact h2
    | tuple ts ss hl _ => obtain ⟨ts', rfl, -⟩ := desc_tuple hb h0 _ rfl; rfl
    | _ => cases hw
  | object exc t j hw hj =>
    intro s t' he hc h h'
    obtain ⟨t0, hb, h0, hup⟩ := desc_strip h'
    apply hup
    refine .object exc _ j ?_ hj
    cases t with
    | map o t => cases h; obtain ⟨o', t1, rfl, -⟩ := desc_mapping hb h0 _ rfl; rfl
    | cls c => obtain ⟨c', ps, rs, rfl, -⟩ := class_pair hD he hb h h0; rfl
    | _ => cases hw
  | vec exc t js j hj _ ih =>
    intro s t' he hc h h'
    obtain ⟨t0, hb, h0, hup⟩ := desc_strip h'
    apply hup
    cases h with
    | vec t s h => obtain ⟨t1, h1, -, h3, -⟩ := desc_items hb h0 _ _ _ rfl; exact h3 exc js j hj (ih s t1 he (calm_item hc hj) h h1)
  | arr exc n t js j hj _ ih =>
    intro s t' he hc h h'
    obtain ⟨t0, hb, h0, hup⟩ := desc_strip h'
    apply hup
    cases h with
    | arr _ t s h => obtain ⟨t1, h1, -, h3, -⟩ := desc_items hb h0 _ _ _ rfl; exact h3 exc js j hj (ih s t1 he (calm_item hc hj) h h1)
  | arrLength exc n t js hl =>
    intro s t' he hc h h'
    obtain ⟨t0, hb, h0, hup⟩ := desc_strip h'
    apply hup
    cases h with
    | arr _ t s h => obtain ⟨t1, -, -, -, h4⟩ := desc_items hb h0 _ _ _ rfl; exact h4 n rfl exc js hl
  | set exc t js j hj _ ih =>
    intro s t' he hc h h'
    obtain ⟨t0, hb, h0, hup⟩ := desc_strip h'
    apply hup
    cases h with
    | set t s h => obtain ⟨t1, h1, -, h3, -⟩ := desc_items hb h0 _ _ _ rfl; exact h3 exc js j hj (ih s t1 he (calm_item hc hj) h h1)
  | dict exc t js j hj _ ih =>
    intro s t' he hc h h'
    obtain ⟨t0, hb, h0, hup⟩ := desc_strip h'
    apply hup
    cases h with
    | dict t s h => obtain ⟨t1, h1, -, h3, -⟩ := desc_items hb h0 _ _ _ rfl; exact h3 exc js j hj (ih s t1 he (calm_item hc hj) h h1)
  | map exc o t ms p hp _ ih =>
    intro s t' he hc h h'
    obtain ⟨t0, hb, h0, hup⟩ := desc_strip h'
    apply hup
    cases h with
    | map _ t s h =>
      obtain ⟨o', t1, rfl, h1⟩ := desc_mapping hb h0 _ rfl
      exact .map exc o' _ ms p hp (ih s t1 he ((CalmFields_iff env ms).1 hc p hp) h h1)
  | tuple exc ts js i t j hi hji _ ih =>
    intro s t' he hc h h'
    obtain ⟨t0, hb, h0, hup⟩ := desc_strip h'
    apply hup
    cases h with
    | tuple _ ss hl h =>
      obtain ⟨ts', rfl, hl', h1⟩ := desc_tuple hb h0 _ rfl
      have hlt : i < ts.length := (List.getElem?_eq_some_iff.1 hi).1
      have hs : ss[i]? = some ss[i] := List.getElem?_eq_getElem (by omega)
      have ht' : ts'[i]? = some ts'[i] := List.getElem?_eq_getElem (by omega)
      refine .tuple exc _ js i (ts'[i]'(by omega)).lower j ?_ hji (ih _ _ (enumlessAll_get he hs) (calm_item hc (List.mem_of_getElem? hji)) (h i t _ hi hs) (h1 i _ _ ht' hs))
      rw [lowers_map, List.getElem?_map, ht']; rfl
  | tupleLength exc ts js hl =>
    intro s t' he hc h h'
    obtain ⟨t0, hb, h0, hup⟩ := desc_strip h'
    apply hup
    cases h with
    | tuple _ ss hl1 h =>
      obtain ⟨ts', rfl, hl', h1⟩ := desc_tuple hb h0 _ rfl
      exact .tupleLength exc _ js (by rw [lowers_map, List.length_map]; omega)
  | variant exc ts j _ ih =>
    intro s t' he hc h h'
    obtain ⟨t0, hb, h0, hup⟩ := desc_strip h'
    apply hup
    cases h with
    | variant _ ss hl h =>
      obtain ⟨ts', rfl, hl', h1⟩ := desc_oneOf hb h0 _ rfl
      refine .variant exc _ j fun x hx => ?_
      rw [lowers_map] at hx
      obtain ⟨y, hy, rfl⟩ := List.mem_map.1 hx
      obtain ⟨i, hi, rfl⟩ := List.mem_iff_getElem.1 hy
      have hs : ss[i]? = some ss[i] := List.getElem?_eq_getElem (by omega)
      have ht : ts[i]? = some ts[i] := List.getElem?_eq_getElem (by omega)
      exact ih ts[i] (List.getElem_mem _) ss[i] _ (enumlessAll_get he hs) hc (h i _ _ ht hs) (h1 i _ _ (List.getElem?_eq_getElem hi) hs)
  | member c ms m i j hm hfm _ ih =>
    intro s t' he hc h h'
    obtain ⟨t0, hb, h0, hup⟩ := desc_strip h'
    apply hup
    obtain ⟨c', ps, rs, rfl, hep, k1, k2⟩ := class_pair hD he hb h h0
    obtain ⟨hl, hp⟩ := hpair hep k1 k2
    obtain ⟨k, hk, rfl⟩ := List.mem_iff_getElem.1 hm
    obtain ⟨e1, e2, s1, l1, l2, l3⟩ := hp k _ _ (List.getElem?_eq_getElem hk) (List.getElem?_eq_getElem (by omega))
    exact .member c' ms _ i j (List.mem_of_getElem? (lower_get (List.getElem?_eq_getElem (by omega)))) (by rw [e1] at hfm; exact hfm) (ih s1 _ l1 (calm_found hc hfm) l2 l3)
  | missing c ms m hm hfm hk =>
    intro s t' he hc h h'
    obtain ⟨t0, hb, h0, hup⟩ := desc_strip h'
    apply hup
    obtain ⟨c', ps, rs, rfl, hep, k1, k2⟩ := class_pair hD he hb h h0
    obtain ⟨hl, hp⟩ := hpair hep k1 k2
    obtain ⟨k, hkl, rfl⟩ := List.mem_iff_getElem.1 hm
    obtain ⟨e1, e2, -⟩ := hp k _ _ (List.getElem?_eq_getElem hkl) (List.getElem?_eq_getElem (by omega))
    exact .missing c' ms _ (List.mem_of_getElem? (lower_get (List.getElem?_eq_getElem (i := k) (by omega)))) (by rw [e1] at hfm; exact hfm) (by rw [e2] at hk; exact hk)
  | last c ms pre m post i j hm hpost hfm _ ih =>
    intro s t' he hc h h'
    obtain ⟨t0, hb, h0, hup⟩ := desc_strip h'
    apply hup
    obtain ⟨c', ps, rs, rfl, hep, k1, k2⟩ := class_pair hD he hb h h0
    obtain ⟨pre', m', post', n1, n2, e1, e2, s1, l1, l2, l3⟩ := hirr hep k1 k2 ms pre m post hm hpost
    obtain ⟨q1, q2⟩ := hlow n1 n2
    exact .last c' ms _ _ _ i j q1 q2 (by rw [e1] at hfm; exact hfm) (ih s1 _ l1 (calm_found hc hfm) l2 l3)
  | lastMissing c ms pre m post hm hpost hfm hk =>
    intro s t' he hc h h'
    obtain ⟨t0, hb, h0, hup⟩ := desc_strip h'
    apply hup
    obtain ⟨c', ps, rs, rfl, hep, k1, k2⟩ := class_pair hD he hb h h0
    obtain ⟨pre', m', post', n1, n2, e1, e2, s1, l1, l2, l3⟩ := hirr hep k1 k2 ms pre m post hm hpost
    obtain ⟨q1, q2⟩ := hlow n1 n2
    exact .lastMissing c' ms _ _ _ q1 q2 (by rw [e1] at hfm; exact hfm) (by rw [e2] at hk; exact hk)
  | uptr exc t j _ ih =>
    intro s t' he hc h h'
    cases h with
    | uptr _ _ h => exact ih s t' he hc h h'

/-- The schema of a type is the schema of the type with unique pointers. -/
theorem desc_lower {env : Env} {D : Defs} {t : Ty} {s : Schema} (h : Desc env D t s) : Desc env.lower D t.lower s := by
  induction h with
  | prim p => exact .prim p
  | vec t s _ ih => exact .vec _ s ih
  | arr n t s _ ih => exact .arr n _ s ih
  | set t s _ ih => exact .set _ s ih
  | map o t s _ ih => exact .map o _ s ih
  | dict t s _ ih => exact .dict _ s ih
  | tuple ts ss hl _ ih =>
    refine .tuple _ ss (by rw [lowers_map, List.length_map]; exact hl) fun i t s ht hs => ?_
    rw [lowers_map, List.getElem?_map] at ht
    obtain ⟨t, hu, rfl⟩ := Option.map_eq_some_iff.1 ht
    exact ih i t s hu hs
  | variant ts ss hl _ ih =>
    refine .variant _ ss (by rw [lowers_map, List.length_map]; exact hl) fun i t s ht hs => ?_
    rw [lowers_map, List.getElem?_map] at ht
    obtain ⟨t, hu, rfl⟩ := Option.map_eq_some_iff.1 ht
    exact ih i t s hu hs
  | cls c ps hn _ ih =>
    have h1 : ((env.lower.members c).filter fun m => m.kind ≠ .optional).map (·.name) = ((env.members c).filter fun m => m.kind ≠ .optional).map (·.name) := by
      rw [Env.lower_members, List.filter_map, List.map_map]
      rfl
    rw [← h1]
    refine .cls c ps (by rw [Env.lower_members, List.map_map]; exact hn) fun i m p hm hp => ?_
    rw [Env.lower_members, List.getElem?_map] at hm
    obtain ⟨m, hu, rfl⟩ := Option.map_eq_some_iff.1 hm
    exact ih i m p hu hp
  | ref c s hl _ ih => exact .ref (env := env.lower) c s hl ih
  | uptr t s _ ih => exact .uptr _ s ih
  | sptr t s _ ih => exact .uptr _ s ih

/-! ## The schema can be read off its document -/

mutual
/-- Signed integers have a negative minimum, everywhere in the schema. -/
def Schema.neg : Schema → Prop
  | .ref _ => True
  | .fundamental _ _ _ => True
  | .signed lo _ => lo < 0
  | .unsigned _ => True
  | .enumeration _ => True
  | .items s _ _ => s.neg
  | .tuple ss => Schema.negAll ss
  | .object ps _ => Schema.negProps ps
  | .mapping s => s.neg
  | .oneOf ss => Schema.negAll ss

/-- `neg` for lists. -/
def Schema.negAll : List Schema → Prop
  | [] => True
  | s :: ss => s.neg ∧ Schema.negAll ss

/-- `neg` for the properties of a class. -/
def Schema.negProps : List (Str × Schema) → Prop
  | [] => True
  | (_, s) :: ps => s.neg ∧ Schema.negProps ps
end

theorem negAll_of {ss : List Schema} (h : ∀ s ∈ ss, s.neg) : Schema.negAll ss := by
  induction ss with
  | nil => trivial
  | cons s ss ih => exact ⟨h s List.mem_cons_self, ih fun x hx => h x (List.mem_cons_of_mem _ hx)⟩

theorem negProps_of {ps : List (Str × Schema)} (h : ∀ p ∈ ps, p.2.neg) : Schema.negProps ps := by
  induction ps with
  | nil => trivial
  | cons s ss ih => exact ⟨h s List.mem_cons_self, ih fun x hx => h x (List.mem_cons_of_mem _ hx)⟩

theorem signed_min_neg (t : IntTy) (h : t.signed = true) : t.min < 0 := by
  obtain ⟨w, s⟩ := t
  cases h
  cases w <;> decide

theorem desc_neg {env : Env} {D : Defs} {t : Ty} {s : Schema} (h : Desc env D t s) : s.neg := by
  induction h with
  | prim p =>
    cases p with
    | int t =>
      by_cases ht : t.signed = true
      · simp [primSchema, ht, Schema.neg, signed_min_neg t ht]
      · simp [primSchema, ht, Schema.neg]
    | _ => trivial
  | vec t s _ ih => exact ih
  | arr n t s _ ih => exact ih
  | set t s _ ih => exact ih
  | map o t s _ ih => exact ih
  | dict t s _ ih => exact ih
  | tuple ts ss hl _ ih =>
    refine negAll_of fun s hs => ?_
    obtain ⟨i, hi, rfl⟩ := List.mem_iff_getElem.1 hs
    exact ih i _ _ (List.getElem?_eq_getElem (by omega)) (List.getElem?_eq_getElem hi)
  | variant ts ss hl _ ih =>
    refine negAll_of fun s hs => ?_
    obtain ⟨i, hi, rfl⟩ := List.mem_iff_getElem.1 hs
    exact ih i _ _ (List.getElem?_eq_getElem (by omega)) (List.getElem?_eq_getElem hi)
  | cls c ps hn _ ih =>
    refine negProps_of fun s hs => ?_
    obtain ⟨i, hi, rfl⟩ := List.mem_iff_getElem.1 hs
    have hl : (env.members c).length = ps.length := by rw [← List.length_map (f := (·.name)), ← List.length_map (f := (·.1)) (as := ps), hn]
    exact ih i _ _ (List.getElem?_eq_getElem (by omega)) (List.getElem?_eq_getElem hi)
  | ref c s hl _ ih => trivial
  | uptr t s _ ih => exact ih
  | sptr t s _ ih => exact ih

/-- Which of the members that tell the classes of schemas apart are there. -/
def fieldTag (l : List (Str × Json)) : List Bool :=
  [lit "$ref", lit "minimum", lit "enum", lit "items", lit "prefixItems", lit "properties", lit "oneOf", lit "additionalProperties"].map fun k =>
    l.any fun p => p.1 == k

/-- The class of a schema. -/
def Schema.tag : Schema → List Bool
  | .ref _ => [true, false, false, false, false, false, false, false]
  | .fundamental _ _ _ => [false, false, false, false, false, false, false, false]
  | .signed _ _ => [false, true, false, false, false, false, false, false]
  | .unsigned _ => [false, true, false, false, false, false, false, false]
  | .enumeration _ => [false, false, true, false, false, false, false, false]
  | .items _ _ _ => [false, false, false, true, false, false, false, false]
  | .tuple _ => [false, false, false, false, true, false, false, false]
  | .object _ _ => [false, false, false, false, false, true, false, true]
  | .mapping _ => [false, false, false, false, false, false, false, true]
  | .oneOf _ => [false, false, false, false, false, false, true, false]

theorem tag_fields (s : Schema) : fieldTag s.fields = s.tag := by
  cases s with
  | fundamental a b c => cases b <;> cases c <;> with_unfolding_all rfl
  | items s u n => cases u <;> cases n <;> with_unfolding_all rfl
  | _ => with_unfolding_all rfl

theorem map_str_inj {rs rs' : List Str} (h : rs.map Json.str = rs'.map Json.str) : rs = rs' := by
  induction rs generalizing rs' with
  | nil => cases rs' with
    | nil => rfl
    | cons _ _ => cases h
  | cons r rs ih => cases rs' with
    | nil => cases h
    | cons r' rs' =>
      simp only [List.map_cons, List.cons.injEq, Json.str.injEq] at h
      rw [h.1, ih h.2]

theorem key_ne_format : lit "format" ≠ lit "contentEncoding" := by decide +kernel

theorem key_ne_items : lit "uniqueItems" ≠ lit "minItems" := by decide +kernel

theorem fields_inj_fundamental {a a' : Str} {b b' c c' : Option Str} (h : (Schema.fundamental a b c).fields = (Schema.fundamental a' b' c').fields) :
    Schema.fundamental a b c = .fundamental a' b' c' := by
  simp only [Schema.fields, List.cons.injEq, Prod.mk.injEq, Json.str.injEq, true_and] at h
  obtain ⟨rfl, h⟩ := h
  cases b <;> cases c <;> cases b' <;> cases c' <;> simp [optField, key_ne_format, key_ne_format.symm] at h ⊢ <;> simp [h]

theorem fields_inj_items {s s' : Schema} {u u' : Bool} {n n' : Option Nat} (h : (Schema.items s u n).fields = (Schema.items s' u' n').fields) :
    s.fields = s'.fields ∧ u = u' ∧ n = n' := by
  simp only [Schema.fields, List.cons.injEq, Prod.mk.injEq, Json.obj.injEq, true_and] at h
  obtain ⟨h1, h⟩ := h
  refine ⟨h1, ?_⟩
  cases u <;> cases n <;> cases u' <;> cases n' <;> simp [optField, key_ne_items, key_ne_items.symm] at h ⊢ <;> omega

mutual
theorem fields_inj (s s' : Schema) (hn : s.neg) (hn' : s'.neg) (h : s.fields = s'.fields) : s = s' := by
  have ht : s.tag = s'.tag := by rw [← tag_fields, ← tag_fields, h]
  match s with
  | .ref r =>
    cases s' with
    | ref r' => simpa [Schema.fields] using h
    | _ => simp [Schema.tag] at ht
  | .fundamental a b c =>
    cases s' with
    | fundamental a' b' c' => exact fields_inj_fundamental h
    | _ => simp [Schema.tag] at ht
  | .signed lo hi =>
    cases s' with
    | signed lo' hi' => simpa [Schema.fields] using h
    | unsigned hi' => simp [Schema.fields] at h; simp only [Schema.neg] at hn; omega
    | _ => simp [Schema.tag] at ht
  | .unsigned hi =>
    cases s' with
    | signed lo' hi' => simp [Schema.fields] at h; simp only [Schema.neg] at hn'; omega
    | unsigned hi' => simpa [Schema.fields] using h
    | _ => simp [Schema.tag] at ht
  | .enumeration a =>
    cases s' with
    | enumeration a' => simpa [Schema.fields] using h
    | _ => simp [Schema.tag] at ht
  | .items s u n =>
    cases s' with
    | items s' u' n' => obtain ⟨h1, rfl, rfl⟩ := fields_inj_items h; rw [fields_inj s s' hn hn' h1]
    | _ => simp [Schema.tag] at ht
  | .tuple ss =>
    cases s' with
    | tuple ss' =>
      simp only [Schema.fields, List.cons.injEq, Prod.mk.injEq, Json.arr.injEq] at h
      rw [jsons_inj ss ss' hn hn' h.2.1.2]
    | _ => simp [Schema.tag] at ht
  | .object ps rs =>
    cases s' with
    | object ps' rs' =>
      simp only [Schema.fields, List.cons.injEq, Prod.mk.injEq, Json.arr.injEq, Json.obj.injEq] at h
      rw [entries_inj ps ps' hn hn' h.2.1.2, map_str_inj h.2.2.1.2]
    | _ => simp [Schema.tag] at ht
  | .mapping s =>
    cases s' with
    | mapping s' =>
      simp only [Schema.fields, List.cons.injEq, Prod.mk.injEq, Json.obj.injEq] at h
      rw [fields_inj s s' hn hn' h.2.1.2]
    | _ => simp [Schema.tag] at ht
  | .oneOf ss =>
    cases s' with
    | oneOf ss' =>
      simp only [Schema.fields, List.cons.injEq, Prod.mk.injEq, Json.arr.injEq] at h
      rw [jsons_inj ss ss' hn hn' h.1.2]
    | _ => simp [Schema.tag] at ht

theorem jsons_inj : ∀ (ss ss' : List Schema), Schema.negAll ss → Schema.negAll ss' → Schema.jsons ss = Schema.jsons ss' → ss = ss' := by
  intro ss ss' hn hn' h
  match ss, ss' with
  | [], [] => rfl
  | [], _ :: _ => cases h
  | _ :: _, [] => cases h
  | s :: ss, s' :: ss' =>
    simp only [Schema.jsons, List.cons.injEq, Json.obj.injEq] at h
    rw [fields_inj s s' hn.1 hn'.1 h.1, jsons_inj ss ss' hn.2 hn'.2 h.2]

theorem entries_inj : ∀ (ps ps' : List (Str × Schema)), Schema.negProps ps → Schema.negProps ps' → Schema.entries ps = Schema.entries ps' → ps = ps' := by
  intro ps ps' hn hn' h
  match ps, ps' with
  | [], [] => rfl
  | [], _ :: _ => cases h
  | _ :: _, [] => cases h
  | (k, s) :: ps, (k', s') :: ps' =>
    simp only [Schema.entries, List.cons.injEq, Prod.mk.injEq, Json.obj.injEq] at h
    rw [fields_inj s s' hn.1 hn'.1 h.1.2, entries_inj ps ps' hn.2 hn'.2 h.2, h.1.1]
end

theorem fields_first (s : Schema) : ∃ k x l, s.fields = (k, x) :: l ∧ k ≠ lit "definitions" ∧ k ≠ lit "$schema" := by
  cases s <;> exact ⟨_, _, _, rfl, by decide +kernel, by decide +kernel⟩

theorem doc_tail {D D' : Defs} {s s' : Schema} (hs : s.neg) (hs' : s'.neg) (hD : Schema.negProps D) (hD' : Schema.negProps D')
    (h : optField (lit "definitions") (if D = [] then none else some (.obj (Schema.entries D))) ++ s.fields =
      optField (lit "definitions") (if D' = [] then none else some (.obj (Schema.entries D'))) ++ s'.fields) : D = D' ∧ s = s' := by
  obtain ⟨k, x, l, e, hk, -⟩ := fields_first s
  obtain ⟨k', x', l', e', hk', -⟩ := fields_first s'
  by_cases h1 : D = [] <;> by_cases h2 : D' = []
  · subst h1 h2
    exact ⟨rfl, fields_inj s s' hs hs' h⟩
  · rw [if_pos h1, if_neg h2, e] at h
    simp only [optField, List.nil_append, List.cons_append, List.cons.injEq, Prod.mk.injEq] at h
    exact absurd h.1.1 hk
  · rw [if_neg h1, if_pos h2, e'] at h
    simp only [optField, List.nil_append, List.cons_append, List.cons.injEq, Prod.mk.injEq] at h
    exact absurd h.1.1.symm hk'
  · rw [if_neg h1, if_neg h2] at h
    simp only [optField, List.nil_append, List.cons_append, List.cons.injEq, Prod.mk.injEq, Json.obj.injEq] at h
    exact ⟨entries_inj D D' hD hD' h.1.2, fields_inj s s' hs hs' h.2⟩

/-- Different schemas are written as different documents. -/
theorem schemaDoc_inj {v v' : Option Str} {D D' : Defs} {s s' : Schema} (hs : s.neg) (hs' : s'.neg) (hD : Schema.negProps D) (hD' : Schema.negProps D')
    (h : schemaDoc v D s = schemaDoc v' D' s') : D = D' ∧ s = s' := by
  simp only [schemaDoc, Json.obj.injEq, List.append_assoc] at h
  have hfirst : ∀ (E : Defs) (r : Schema), ∃ k x l, optField (lit "definitions") (if E = [] then none else some (.obj (Schema.entries E))) ++ r.fields = (k, x) :: l ∧
      k ≠ lit "$schema" := by
    intro E r
    by_cases hE : E = []
    · obtain ⟨k, x, l, e, -, hk⟩ := fields_first r
      exact ⟨k, x, l, by rw [if_pos hE, e]; rfl, hk⟩
    · exact ⟨_, _, _, by rw [if_neg hE]; rfl, by decide +kernel⟩
  cases v with
  | none =>
    cases v' with
    | none => exact doc_tail hs hs' hD hD' h
    | some w =>
      obtain ⟨k, x, l, e, hk⟩ := hfirst D s
      rw [e] at h
      simp only [optField, Option.map, List.nil_append, List.cons_append, List.cons.injEq, Prod.mk.injEq] at h
      exact absurd h.1.1 hk
  | some u =>
    cases v' with
    | none =>
      obtain ⟨k, x, l, e, hk⟩ := hfirst D' s'
      rw [e] at h
      simp only [optField, Option.map, List.nil_append, List.cons_append, List.cons.injEq, Prod.mk.injEq] at h
      exact absurd h.1.1.symm hk
    | some w =>
      simp only [optField, Option.map, List.cons_append, List.nil_append, List.cons.injEq] at h
      exact doc_tail hs hs' hD hD' h.2

end Verif.Core
