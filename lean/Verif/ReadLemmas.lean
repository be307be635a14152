import Verif.ReadSpec
import Verif.Props.Numeric

/-!
# The DOM reader against the specification
-/

namespace Verif.Core
open Verif.Numeric Verif.EnumConv

/-! ## Side conditions -/

theorem CalmAll_iff (env : Env) (js : List Json) : CalmAll env js ↔ ∀ j ∈ js, Calm env j := by
  induction js with
  | nil => simp [CalmAll]
  | cons j js ih => simp [CalmAll, ih]

theorem CalmFields_iff (env : Env) (ms : List (Str × Json)) : CalmFields env ms ↔ ∀ p ∈ ms, Calm env p.2 := by
  induction ms with
  | nil => simp [CalmFields]
  | cons p ms ih => cases p; simp [CalmFields, ih]

theorem Calm.item {env : Env} {js : List Json} (h : Calm env (.arr js)) {j : Json} (hj : j ∈ js) : Calm env j := by
  simp only [Calm] at h
  exact (CalmAll_iff env js).1 h j hj

theorem Calm.field {env : Env} {ms : List (Str × Json)} (h : Calm env (.obj ms)) {p : Str × Json} (hp : p ∈ ms) : Calm env p.2 := by
  simp only [Calm] at h
  exact (CalmFields_iff env ms).1 h p hp

theorem Part.of_child {env : Env} {t t1 t2 : Ty} {j j1 j2 : Json} (h : Child env t j t1 j1) (h' : Part env t1 j1 t2 j2) :
    Part env t j t2 j2 := by
  induction h' with
  | self => exact .child t j t1 j1 .self h
  | child t3 j3 t4 j4 _ hc ih => exact .child t3 j3 t4 j4 ih hc

theorem Unmasked.child {env : Env} {t t' : Ty} {j j' : Json} (h : Unmasked env t j) (hc : Child env t j t' j') : Unmasked env t' j' :=
  fun c fields hp => h c fields (Part.of_child hc hp)

theorem VariantsUnmasked.child {env : Env} {t t' : Ty} {j j' : Json} (h : VariantsUnmasked env t j) (hc : Child env t j t' j') :
    VariantsUnmasked env t' j' :=
  fun ts j1 hp => h ts j1 (Part.of_child hc hp)

theorem Part.trans {env : Env} {t t1 t2 : Ty} {j j1 j2 : Json} (h : Part env t j t1 j1) (h' : Part env t1 j1 t2 j2) :
    Part env t j t2 j2 := by
  induction h' with
  | self => exact h
  | child t3 j3 t4 j4 _ hc ih => exact .child t3 j3 t4 j4 ih hc

theorem Unmasked.variants {env : Env} {t : Ty} {j : Json} (h : Unmasked env t j) : VariantsUnmasked env t j :=
  fun _ _ hp c fields hp' => h c fields (hp.trans hp')

/-! ## Leaves -/

/-- A leaf is read iff the document denotes a value. -/
theorem desPrim_ok (env : Env) (p : Prim) (j : Json) (pv : PVal) : desPrim env p j = .ok pv ↔ LeafReads env p j pv := by
  have hint : ∀ (t : IntTy) (j : Json) (pv : PVal), desInt t j = .ok pv ↔ ∃ v, j = .num (.int v) ∧ t.InRange v ∧ pv = .int v := by
    intro t j pv
    cases j with
    | num n =>
      simp only [desInt]
      constructor
      · intro h
        split at h
        · rename_i v hv
          obtain ⟨rfl, hr⟩ := (Props.C15_deserialize_int_exact t n v).1 hv
          cases h
          exact ⟨v, rfl, hr, rfl⟩
        · cases h
        · cases h
      · rintro ⟨v, hn, hr, rfl⟩
        cases hn
        rw [(Props.C15_deserialize_int_exact t _ v).2 ⟨rfl, hr⟩]
    | _ => simp [desInt]
  constructor
  · intro h
    cases p with
    | null => cases j <;> first | (cases h; done) | (cases h; exact .null)
    | bool => cases j <;> first | (cases h; done) | (cases h; exact .bool _)
    | int t =>
      obtain ⟨v, rfl, hr, rfl⟩ := (hint t j pv).1 h
      exact .int t v hr
    | flt t => cases j <;> first | (cases h; done) | (cases h; exact .flt _ _)
    | str => cases j <;> first | (cases h; done) | (cases h; exact .str _)
    | bytes =>
      cases j with
      | str s =>
        rw [desPrim_bytes] at h
        split at h
        · rename_i bs hb
          cases h
          exact .bytes s bs hb
        · cases h
      | _ => cases h
    | time =>
      cases j with
      | str s =>
        rw [desPrim_time] at h
        split at h
        · rename_i t ht
          cases h
          exact .time s t ht
        · cases h
        · cases h
      | _ => cases h
    | date =>
      cases j with
      | str s =>
        rw [desPrim_date] at h
        split at h
        · rename_i y m d hd
          cases h
          exact .date s y m d hd
        · cases h
        · cases h
      | _ => cases h
    | enumInt t =>
      obtain ⟨v, rfl, hr, rfl⟩ := (hint t j pv).1 h
      exact .enumInt t v hr
    | enumStr table =>
      cases j with
      | str s =>
        rw [desPrim_enumStr] at h
        split at h
        · rename_i v hv
          cases h
          exact .enumStr table s v hv
        · cases h
      | _ => cases h
  · intro h
    cases h with
    | null => rfl
    | bool b => rfl
    | int t v hr => exact (hint t _ _).2 ⟨v, rfl, hr, rfl⟩
    | flt t n => rfl
    | str s => rfl
    | bytes s bs hb => rw [desPrim_bytes, hb]
    | time s t ht => rw [desPrim_time, ht]
    | date s y m d hd => rw [desPrim_date, hd]
    | enumInt t v hr => exact (hint t _ _).2 ⟨v, rfl, hr, rfl⟩
    | enumStr table s v hv => rw [desPrim_enumStr, hv]

theorem desPrim_calm (env : Env) (p : Prim) (j : Json) (h : Calm env j) : desPrim env p j ≠ .ub := by
  have hint : ∀ (t : IntTy) (j : Json), desInt t j ≠ .ub := by
    intro t j
    cases j with
    | num n => simp only [desInt]; split <;> simp
    | _ => simp [desInt]
  cases p with
  | null => cases j <;> (intro hc; cases hc)
  | bool => cases j <;> (intro hc; cases hc)
  | int t => exact hint t j
  | flt t => cases j <;> (intro hc; cases hc)
  | str => cases j <;> (intro hc; cases hc)
  | bytes =>
    cases j with
    | str s => rw [desPrim_bytes]; split <;> simp
    | _ => intro hc; cases hc
  | time =>
    cases j with
    | str s =>
      simp only [Calm, CalmStr] at h
      rw [desPrim_time]
      split
      · simp
      · simp
      · rename_i ho
        exact absurd ho h.1
    | _ => intro hc; cases hc
  | date =>
    cases j with
    | str s =>
      simp only [Calm, CalmStr] at h
      rw [desPrim_date]
      split
      · simp
      · simp
      · rename_i ho
        exact absurd ho h.2
    | _ => intro hc; cases hc
  | enumInt t => exact hint t j
  | enumStr table =>
    cases j with
    | str s => rw [desPrim_enumStr]; split <;> simp
    | _ => intro hc; cases hc

/-! ## Totality -/

/-- The document conforms to the type or not. -/
def Verdict (env : Env) (j : Json) (t : Ty) : Prop := (∀ target, ∃ v, Decodes env t j target v) ∨ Fails env t j

theorem verdict_all (env : Env) (t : Ty) (js : List Json) (h : ∀ j ∈ js, Verdict env j t) :
    (∃ vs, DecodesAll env t js vs) ∨ ∃ j ∈ js, Fails env t j := by
  induction js with
  | nil => exact .inl ⟨[], .nil t⟩
  | cons j js ih =>
    rcases h j (by simp) with hd | hf
    · rcases ih (fun j hj => h j (by simp [hj])) with ⟨vs, hvs⟩ | ⟨j', hj', hf⟩
      · obtain ⟨v, hv⟩ := hd (env.fresh t)
        exact .inl ⟨v :: vs, .cons t j js v vs hv hvs⟩
      · exact .inr ⟨j', by simp [hj'], hf⟩
    · exact .inr ⟨j, by simp, hf⟩

theorem verdict_entries (env : Env) (t : Ty) (ms : List (Str × Json)) (h : ∀ p ∈ ms, Verdict env p.2 t) :
    (∃ kvs, DecodesEntries env t ms kvs) ∨ ∃ p ∈ ms, Fails env t p.2 := by
  induction ms with
  | nil => exact .inl ⟨[], .nil t⟩
  | cons p ms ih =>
    obtain ⟨k, j⟩ := p
    rcases h (k, j) (by simp) with hd | hf
    · rcases ih (fun j hj => h j (by simp [hj])) with ⟨vs, hvs⟩ | ⟨j', hj', hf⟩
      · obtain ⟨v, hv⟩ := hd (env.fresh t)
        exact .inl ⟨(cstr k, v) :: vs, .cons t k j ms v vs hv hvs⟩
      · exact .inr ⟨j', by simp [hj'], hf⟩
    · exact .inr ⟨(k, j), by simp, hf⟩

theorem verdict_each (env : Env) (js : List Json) : ∀ ts, js.length = ts.length → (∀ j ∈ js, ∀ t ∈ ts, Verdict env j t) →
    (∀ targets, ∃ vs, DecodesEach env ts js targets vs) ∨ ∃ (i : Nat) (t : Ty) (j : Json), ts[i]? = some t ∧ js[i]? = some j ∧ Fails env t j := by
  induction js with
  | nil =>
    intro ts hl h
    cases ts with
    | nil => exact .inl fun targets => ⟨[], .nil targets⟩
    | cons t ts => simp at hl
  | cons j js ih =>
    intro ts hl h
    cases ts with
    | nil => simp at hl
    | cons t ts =>
      rcases h j (by simp) t (by simp) with hd | hf
      · rcases ih ts (by simpa using hl) (fun j hj t ht => h j (by simp [hj]) t (by simp [ht])) with hvs | ⟨i, t', j', h1, h2, hf⟩
        · refine .inl fun targets => ?_
          obtain ⟨v, hv⟩ := hd (targets.headD (env.fresh t))
          obtain ⟨vs, hvs⟩ := hvs targets.tail
          exact ⟨v :: vs, .cons t ts j js targets v vs hv hvs⟩
        · exact .inr ⟨i + 1, t', j', by simpa using h1, by simpa using h2, hf⟩
      · exact .inr ⟨0, t, j, rfl, rfl, hf⟩

theorem verdict_members (env : Env) (fields : List (Str × Json)) (ms : List Member) (h : ∀ p ∈ fields, ∀ m ∈ ms, Verdict env p.2 m.ty) :
    (∀ targets, ∃ vs, DecodesMembers env fields ms targets vs) ∨ ∃ m ∈ ms, BadMember env fields m := by
  induction ms with
  | nil => exact .inl fun targets => ⟨[], .nil fields targets⟩
  | cons m ms ih =>
    rcases ih (fun p hp m hm => h p hp m (by simp [hm])) with hvs | ⟨m', hm', hb⟩
    · cases hf : findMember m.name fields with
      | none =>
        cases hk : m.kind with
        | required => exact .inr ⟨m, by simp, .inr ⟨hf, hk⟩⟩
        | optional =>
          refine .inl fun targets => ?_
          obtain ⟨vs, hvs⟩ := hvs targets.tail
          exact ⟨_, .none fields m ms targets vs hf hk hvs⟩
        | default =>
          refine .inl fun targets => ?_
          obtain ⟨vs, hvs⟩ := hvs targets.tail
          exact ⟨_, .keep fields m ms targets vs hf hk hvs⟩
      | some q =>
        obtain ⟨i, j⟩ := q
        rcases h (m.name, j) (findMember_mem hf) m (by simp) with hd | hbad
        · refine .inl fun targets => ?_
          obtain ⟨vs, hvs⟩ := hvs targets.tail
          by_cases hk : m.kind = .optional
          · obtain ⟨v, hv⟩ := hd (env.fresh m.ty)
            exact ⟨_, .some fields m ms targets i j v vs hf hk hv hvs⟩
          · obtain ⟨v, hv⟩ := hd (targets.headD (env.fresh m.ty))
            exact ⟨_, .present fields m ms targets i j v vs hf hk hv hvs⟩
        · exact .inr ⟨m, by simp, .inl ⟨i, j, hf, hbad⟩⟩
    · exact .inr ⟨m', by simp [hm'], hb⟩

theorem verdict_alts (env : Env) (j : Json) (ts : List Ty) (h : ∀ t ∈ ts, Verdict env j t) :
    (∃ (i : Nat) (t : Ty) (v : Val), ts[i]? = some t ∧ (∀ (k : Nat) (t' : Ty), k < i → ts[k]? = some t' → Fails env t' j) ∧ Decodes env t j (env.fresh t) v) ∨
      ∀ t ∈ ts, Fails env t j := by
  induction ts with
  | nil => exact .inr (by simp)
  | cons t ts ih =>
    rcases h t (by simp) with hd | hf
    · obtain ⟨v, hv⟩ := hd (env.fresh t)
      exact .inl ⟨0, t, v, rfl, fun k t' hk => by omega, hv⟩
    · rcases ih (fun t ht => h t (by simp [ht])) with ⟨i, t', v, h1, h2, h3⟩ | hall
      · refine .inl ⟨i + 1, t', v, by simpa using h1, fun k t'' hk hkt => ?_, h3⟩
        cases k with
        | zero => simp at hkt; exact hkt ▸ hf
        | succ k => exact h2 k t'' (by omega) (by simpa using hkt)
      · refine .inr fun t' ht' => ?_
        rcases List.mem_cons.1 ht' with rfl | ht'
        · exact hf
        · exact hall t' ht'

/-- Every document either conforms to a type or does not. -/
theorem verdict (env : Env) (hu : env.Unshared) : ∀ j t, t.unshared = true → Verdict env j t := by
  apply lexInd
  intro j t ihj iht ht
  cases t with
  | prim p =>
    by_cases h : ∃ pv, LeafReads env p j pv
    · obtain ⟨pv, h⟩ := h
      exact .inl fun target => ⟨_, .prim p j target pv h⟩
    · exact .inr (.prim p j fun pv hpv => h ⟨pv, hpv⟩)
  | vec t =>
    cases j with
    | arr js =>
      rcases verdict_all env t js (fun j hj => ihj j (size_item hj) t ht) with ⟨vs, h⟩ | ⟨j, hj, hf⟩
      · exact .inl fun target => ⟨_, .vec t js target vs h⟩
      · exact .inr (.vec t js j hj hf)
    | _ => exact .inr (.array _ _ rfl (by simp))
  | arr n t =>
    cases j with
    | arr js =>
      by_cases hl : js.length = n
      · rcases verdict_all env t js (fun j hj => ihj j (size_item hj) t ht) with ⟨vs, h⟩ | ⟨j, hj, hf⟩
        · exact .inl fun target => ⟨_, .arr n t js target vs hl h⟩
        · exact .inr (.arr n t js j hj hf)
      · exact .inr (.arrLength n t js hl)
    | _ => exact .inr (.array _ _ rfl (by simp))
  | set t =>
    cases j with
    | arr js =>
      rcases verdict_all env t js (fun j hj => ihj j (size_item hj) t ht) with ⟨vs, h⟩ | ⟨j, hj, hf⟩
      · exact .inl fun target => ⟨_, .set t js target vs h⟩
      · exact .inr (.set t js j hj hf)
    | _ => exact .inr (.array _ _ rfl (by simp))
  | map o t =>
    cases j with
    | obj ms =>
      rcases verdict_entries env t ms (fun p hp => ihj p.2 (size_field hp) t ht) with ⟨vs, h⟩ | ⟨j, hj, hf⟩
      · exact .inl fun target => ⟨_, .map o t ms target vs h⟩
      · exact .inr (.map o t ms j hj hf)
    | _ => exact .inr (.object _ _ rfl (by simp))
  | dict t =>
    cases j with
    | arr js =>
      rcases verdict_all env (.tuple [.prim .str, t]) js
        (fun j hj => ihj j (size_item hj) _ (by simpa [Ty.unshared, Ty.unshareds] using ht)) with ⟨vs, h⟩ | ⟨j, hj, hf⟩
      · exact .inl fun target => ⟨_, .dict t js target vs h⟩
      · exact .inr (.dict t js j hj hf)
    | _ => exact .inr (.array _ _ rfl (by simp))
  | tuple ts =>
    cases j with
    | arr js =>
      by_cases hl : js.length = ts.length
      · rcases verdict_each env js ts hl (fun j hj t ht' => ihj j (size_item hj) t ((Ty.unshareds_iff ts).1 ht t ht')) with h | ⟨i, t, j, h1, h2, hf⟩
        · refine .inl fun target => ?_
          obtain ⟨vs, h⟩ := h target.components
          exact ⟨_, .tuple ts js target vs h⟩
        · exact .inr (.tuple ts js i t j h1 h2 hf)
      · exact .inr (.tupleLength ts js hl)
    | _ => exact .inr (.array _ _ rfl (by simp))
  | variant ts =>
    rcases verdict_alts env j ts (fun t ht' => iht t (size_alt ht') ((Ty.unshareds_iff ts).1 ht t ht')) with ⟨i, t, v, h1, h2, h3⟩ | h
    · exact .inl fun target => ⟨_, .variant ts j target i t v h1 h2 h3⟩
    · exact .inr (.variant ts j h)
  | cls c =>
    cases j with
    | obj ms =>
      rcases verdict_members env ms (env.members c) (fun p hp m hm => ihj p.2 (size_field hp) m.ty (hu c m hm)) with h | ⟨m, hm, hb⟩
      · refine .inl fun target => ?_
        obtain ⟨vs, h⟩ := h target.members
        exact ⟨_, .cls c ms target vs h⟩
      · rcases hb with ⟨i, j, h1, h2⟩ | ⟨h1, h2⟩
        · exact .inr (.member c ms m i j hm h1 h2)
        · exact .inr (.missing c ms m hm h1 h2)
    | _ => exact .inr (.object _ _ rfl (by simp))
  | uptr t =>
    rcases iht t (by simp) ht with h | h
    · refine .inl fun target => ?_
      obtain ⟨v, hv⟩ := h (env.ctor t)
      exact ⟨_, .uptr t j target v hv⟩
    · exact .inr (.uptr t j h)
  | sptr t => simp [Ty.unshared] at ht

/-! ## Conforming and not conforming exclude each other -/

theorem exclusive (env : Env) : ∀ j t, Fails env t j → ∀ target v, ¬ Decodes env t j target v := by
  apply lexInd
  intro j t ihj iht hf target v hd
  have hall : ∀ (t : Ty) (js : List Json) (vs : List Val), DecodesAll env t js vs → ∀ j ∈ js, ∃ tg v, Decodes env t j tg v := by
    intro t js vs h
    induction js generalizing vs with
    | nil => simp
    | cons j js ih =>
      cases h with
      | cons _ _ _ v vs h1 h2 =>
        intro j' hj'
        rcases List.mem_cons.1 hj' with rfl | hj'
        · exact ⟨_, v, h1⟩
        · exact ih vs h2 j' hj'
  cases hf with
  | prim p j h =>
    cases hd with
    | prim _ _ _ pv h' => exact h pv h'
  | array t j hw hj => cases hd <;> first | exact absurd rfl (hj _) | simp [Ty.wantsArray] at hw
  | object t j hw hj => cases hd <;> first | exact absurd rfl (hj _) | simp [Ty.wantsObject] at hw
  | vec t js j hj hf =>
    cases hd with
    | vec _ _ _ vs h => obtain ⟨tg, w, hw⟩ := hall t js vs h j hj; exact ihj j (size_item hj) t hf tg w hw
  | arr n t js j hj hf =>
    cases hd with
    | arr _ _ _ _ vs _ h => obtain ⟨tg, w, hw⟩ := hall t js vs h j hj; exact ihj j (size_item hj) t hf tg w hw
  | arrLength n t js hl =>
    cases hd with
    | arr _ _ _ _ vs h _ => exact hl h
  | set t js j hj hf =>
    cases hd with
    | set _ _ _ vs h => obtain ⟨tg, w, hw⟩ := hall t js vs h j hj; exact ihj j (size_item hj) t hf tg w hw
  | map o t ms p hp hf =>
    cases hd with
    | map _ _ _ _ kvs h =>
      have : ∀ (ms : List (Str × Json)) (kvs : List (Str × Val)), DecodesEntries env t ms kvs → ∀ p ∈ ms, ∃ tg v, Decodes env t p.2 tg v := by
        intro ms kvs h
        induction ms generalizing kvs with
        | nil => simp
        | cons q ms ih =>
          cases h with
          | cons _ k j _ v kvs h1 h2 =>
            intro p hp
            rcases List.mem_cons.1 hp with rfl | hp
            · exact ⟨_, v, h1⟩
            · exact ih kvs h2 p hp
      obtain ⟨tg, w, hw⟩ := this ms kvs h p hp
      exact ihj p.2 (size_field hp) t hf tg w hw
  | dict t js j hj hf =>
    cases hd with
    | dict _ _ _ vs h => obtain ⟨tg, w, hw⟩ := hall _ js vs h j hj; exact ihj j (size_item hj) _ hf tg w hw
  | tuple ts js i t j h1 h2 hf =>
    cases hd with
    | tuple _ _ _ vs h =>
      have : ∀ (js : List Json) (ts : List Ty) (targets vs : List Val), DecodesEach env ts js targets vs →
          ∀ (i : Nat) (t : Ty) (j : Json), ts[i]? = some t → js[i]? = some j → ∃ tg v, Decodes env t j tg v := by
        intro js
        induction js with
        | nil => intro ts targets vs h i t j _ h2; simp at h2
        | cons j js ih =>
          intro ts targets vs h i t' j' h1 h2
          cases h with
          | cons t ts _ _ _ v vs h3 h4 =>
            cases i with
            | zero => simp at h1 h2; subst h1; subst h2; exact ⟨_, v, h3⟩
            | succ i => exact ih ts _ vs h4 i t' j' (by simpa using h1) (by simpa using h2)
      obtain ⟨tg, w, hw⟩ := this js ts _ vs h i t j h1 h2
      exact ihj j (size_item (List.mem_of_getElem? h2)) t hf tg w hw
  | tupleLength ts js hl =>
    cases hd with
    | tuple _ _ _ vs h =>
      have : ∀ (js : List Json) (ts : List Ty) (targets vs : List Val), DecodesEach env ts js targets vs → js.length = ts.length := by
        intro js
        induction js with
        | nil => intro ts targets vs h; cases h; rfl
        | cons j js ih =>
          intro ts targets vs h
          cases h with
          | cons t ts _ _ _ v vs h3 h4 => simp [ih ts _ vs h4]
      exact hl (this js ts _ vs h)
  | variant ts j h =>
    cases hd with
    | variant _ _ _ i t v h1 h2 h3 => exact iht t (size_alt (List.mem_of_getElem? h1)) (h t (List.mem_of_getElem? h1)) _ v h3
  | member c ms m i j hm hfm hf =>
    cases hd with
    | cls _ _ _ vs h =>
      have : ∀ (l : List Member) (targets vs : List Val), DecodesMembers env ms l targets vs → m ∈ l → ∃ tg v, Decodes env m.ty j tg v := by
        intro l
        induction l with
        | nil => intro targets vs h hm; simp at hm
        | cons m' l ih =>
          intro targets vs h hm
          rcases List.mem_cons.1 hm with rfl | hm
          · cases h with
            | present _ _ _ _ i' j' v vs h1 h2 h3 h4 => rw [hfm] at h1; cases h1; exact ⟨_, v, h3⟩
            | some _ _ _ _ i' j' v vs h1 h2 h3 h4 => rw [hfm] at h1; cases h1; exact ⟨_, v, h3⟩
            | none _ _ _ _ vs h1 => rw [hfm] at h1; cases h1
            | keep _ _ _ _ vs h1 => rw [hfm] at h1; cases h1
          · cases h with
            | present _ _ _ _ i' j' v vs h1 h2 h3 h4 => exact ih _ vs h4 hm
            | some _ _ _ _ i' j' v vs h1 h2 h3 h4 => exact ih _ vs h4 hm
            | none _ _ _ _ vs h1 h2 h3 => exact ih _ vs h3 hm
            | keep _ _ _ _ vs h1 h2 h3 => exact ih _ vs h3 hm
      obtain ⟨tg, w, hw⟩ := this (env.members c) _ vs h hm
      exact ihj j (size_field (findMember_mem hfm)) m.ty hf tg w hw
  | missing c ms m hm hfm hk =>
    cases hd with
    | cls _ _ _ vs h =>
      have : ∀ (l : List Member) (targets vs : List Val), DecodesMembers env ms l targets vs → m ∈ l → False := by
        intro l
        induction l with
        | nil => intro targets vs h hm; simp at hm
        | cons m' l ih =>
          intro targets vs h hm
          rcases List.mem_cons.1 hm with rfl | hm
          · cases h with
            | present _ _ _ _ i' j' v vs h1 h2 h3 h4 => rw [hfm] at h1; cases h1
            | some _ _ _ _ i' j' v vs h1 h2 h3 h4 => rw [hfm] at h1; cases h1
            | none _ _ _ _ vs h1 h2 => rw [hk] at h2; cases h2
            | keep _ _ _ _ vs h1 h2 => rw [hk] at h2; cases h2
          · cases h with
            | present _ _ _ _ i' j' v vs h1 h2 h3 h4 => exact ih _ vs h4 hm
            | some _ _ _ _ i' j' v vs h1 h2 h3 h4 => exact ih _ vs h4 hm
            | none _ _ _ _ vs h1 h2 h3 => exact ih _ vs h3 hm
            | keep _ _ _ _ vs h1 h2 h3 => exact ih _ vs h3 hm
      exact this (env.members c) _ vs h hm
  | uptr t j h =>
    cases hd with
    | uptr _ _ _ v h' => exact iht t (by simp) h _ v h'

/-! ## Reading without exceptions does not throw -/

/-- The reader returns. -/
def PRes.Returns {α : Type} (r : PRes α) : Prop := ∃ ok a, r = .done ok a

theorem PRes.Returns.map {α β : Type} {f : α → β} {r : PRes α} (h : r.Returns) : (r.map f).Returns := by
  obtain ⟨ok, a, rfl⟩ := h
  exact ⟨ok, f a, rfl⟩

/-- Without overflow of the clock the boolean reader returns. -/
theorem calm_returns (env : Env) (hu : env.Unshared) : ∀ j t, t.unshared = true → Calm env j → ∀ target segs, (pd env j false t target segs).Returns := by
  apply lexInd
  intro j t ihj iht ht hc target segs
  have hsame : ∀ (t : Ty) (js : List Json), (∀ j ∈ js, ∀ tg segs, (pd env j false t tg segs).Returns) → ∀ k segs, (pSame env t false js k segs).Returns := by
    intro t js h
    induction js with
    | nil => exact fun k segs => ⟨true, [], rfl⟩
    | cons j js ih =>
      intro k segs
      obtain ⟨ok, v, hv⟩ := h j (by simp) (env.fresh t) (.index k :: segs)
      simp only [pSame, hv]
      cases ok with
      | false => exact ⟨_, _, rfl⟩
      | true => exact (ih (fun j hj => h j (by simp [hj])) (k + 1) segs).map
  cases t with
  | prim p =>
    rw [pd_prim]
    cases hp : desPrim env p j with
    | ub => exact absurd hp (desPrim_calm env p j hc)
    | reject e => exact ⟨_, _, rfl⟩
    | ok pv => exact ⟨_, _, rfl⟩
  | vec t =>
    cases j with
    | arr js => rw [pd_vec env hu _ _ _ js t ht]; exact (hsame t js (fun j hj => ihj j (size_item hj) t ht (hc.item hj)) 0 segs).map
    | _ => rw [pd_not_arr env _ _ _ _ _ (by simp) (by simp)]; exact ⟨_, _, rfl⟩
  | arr n t =>
    cases j with
    | arr js =>
      rw [pd_arr env hu _ _ _ js n t ht]
      split
      · obtain ⟨ok, vs, h⟩ := hsame t js (fun j hj => ihj j (size_item hj) t ht (hc.item hj)) 0 segs
        rw [h]
        cases ok <;> exact ⟨_, _, rfl⟩
      · exact ⟨_, _, rfl⟩
    | _ => rw [pd_not_arr env _ _ _ _ _ (by simp) (by simp)]; exact ⟨_, _, rfl⟩
  | set t =>
    cases j with
    | arr js => rw [pd_set env hu _ _ _ js t ht]; exact (hsame t js (fun j hj => ihj j (size_item hj) t ht (hc.item hj)) 0 segs).map
    | _ => rw [pd_not_arr env _ _ _ _ _ (by simp) (by simp)]; exact ⟨_, _, rfl⟩
  | map o t =>
    cases j with
    | obj ms =>
      rw [pd_map env hu _ _ _ ms o t ht]
      have : ∀ ms : List (Str × Json), (∀ p ∈ ms, ∀ tg segs, (pd env p.2 false t tg segs).Returns) → (pEntries env t false ms segs).Returns := by
        intro ms h
        induction ms with
        | nil => exact ⟨true, [], rfl⟩
        | cons p ms ih =>
          obtain ⟨key, j⟩ := p
          obtain ⟨ok, v, hv⟩ := h (key, j) (by simp) (env.fresh t) (Seg.name (cstr key) :: segs)
          simp only [pEntries, hv]
          cases ok with
          | false => exact ⟨_, _, rfl⟩
          | true => exact (ih (fun j hj => h j (by simp [hj]))).map
      exact (this ms (fun p hp => ihj p.2 (size_field hp) t ht (hc.field hp))).map
    | _ => rw [pd_not_obj env _ _ _ _ _ (by simp) (by simp)]; exact ⟨_, _, rfl⟩
  | dict t =>
    cases j with
    | arr js =>
      rw [pd_dict env hu _ _ _ js t ht]
      exact (hsame _ js (fun j hj => ihj j (size_item hj) _ (by simpa [Ty.unshared, Ty.unshareds] using ht) (hc.item hj)) 0 segs).map
    | _ => rw [pd_not_arr env _ _ _ _ _ (by simp) (by simp)]; exact ⟨_, _, rfl⟩
  | tuple ts =>
    cases j with
    | arr js =>
      rw [pd_tuple env hu _ _ _ js ts ht]
      split
      · have : ∀ (js : List Json) (ts : List Ty) (targets : List Val) (k : Nat), (∀ j ∈ js, ∀ t ∈ ts, ∀ tg segs, (pd env j false t tg segs).Returns) →
            (pTuple env false js ts targets k segs).Returns := by
          intro js
          induction js with
          | nil => intro ts targets k h; cases ts <;> exact ⟨_, _, rfl⟩
          | cons j js ih =>
            intro ts targets k h
            cases ts with
            | nil => exact ⟨_, _, rfl⟩
            | cons t ts =>
              obtain ⟨ok, v, hv⟩ := h j (by simp) t (by simp) (targets.headD (env.fresh t)) (.index k :: segs)
              simp only [pTuple, hv]
              cases ok with
              | false => exact ⟨_, _, rfl⟩
              | true => exact (ih ts targets.tail (k + 1) (fun j hj t ht => h j (by simp [hj]) t (by simp [ht]))).map
        exact (this js ts _ 0 (fun j hj t ht' => ihj j (size_item hj) t ((Ty.unshareds_iff ts).1 ht t ht') (hc.item hj))).map
      · exact ⟨_, _, rfl⟩
    | _ => rw [pd_not_arr env _ _ _ _ _ (by simp) (by simp)]; exact ⟨_, _, rfl⟩
  | variant ts =>
    rw [pd_variant env hu _ _ _ j ts ht]
    have : ∀ (ts : List Ty) (i : Nat), (∀ t ∈ ts, ∀ tg segs, (pd env j false t tg segs).Returns) → (pAll env j ts i segs).Returns := by
      intro ts
      induction ts with
      | nil => intro i h; exact ⟨_, _, rfl⟩
      | cons t ts ih =>
        intro i h
        obtain ⟨ok, v, hv⟩ := h t (by simp) (env.fresh t) segs
        simp only [pAll, hv]
        cases ok with
        | false => exact ih (i + 1) (fun t ht => h t (by simp [ht]))
        | true => exact ⟨_, _, rfl⟩
    obtain ⟨ok, v, h⟩ := this ts 0 (fun t ht' => iht t (size_alt ht') ((Ty.unshareds_iff ts).1 ht t ht') hc)
    rw [h]
    cases ok <;> exact ⟨_, _, rfl⟩
  | cls c =>
    cases j with
    | obj ms =>
      rw [pd_cls env hu _ _ _ ms c]
      have : ∀ (l : List Member) (targets : List Val) (res : Bool), (∀ p ∈ ms, ∀ m ∈ l, ∀ tg segs, (pd env p.2 false m.ty tg segs).Returns) →
          (pMembers env false ms segs l targets res).Returns := by
        intro l
        induction l with
        | nil => intro targets res h; exact ⟨_, _, rfl⟩
        | cons m l ih =>
          intro targets res h
          have ih' := fun targets res => ih targets res (fun p hp m hm => h p hp m (by simp [hm]))
          simp only [pMembers]
          cases hf : findMember m.name ms with
          | none =>
            cases m.kind with
            | required => exact (ih' targets.tail false).map
            | optional => exact (ih' targets.tail res).map
            | default => exact (ih' targets.tail res).map
          | some q =>
            obtain ⟨i, j⟩ := q
            obtain ⟨ok, v, hv⟩ := h (m.name, j) (findMember_mem hf) m (by simp)
              (if m.kind = .optional then env.fresh m.ty else targets.headD (env.fresh m.ty)) (Seg.name (cstr m.name) :: segs)
            simp only [hv]
            exact (ih' targets.tail ok).map
      exact (this (env.members c) _ true (fun p hp m hm => ihj p.2 (size_field hp) m.ty (hu c m hm) (hc.field hp))).map
    | _ => rw [pd_not_obj env _ _ _ _ _ (by simp) (by simp)]; exact ⟨_, _, rfl⟩
  | uptr t =>
    rw [pd_uptr env hu _ _ _ j t ht]
    obtain ⟨ok, v, h⟩ := iht t (by simp) ht hc (env.ctor t) segs
    rw [h]
    cases ok <;> exact ⟨_, _, rfl⟩
  | sptr t => simp [Ty.unshared] at ht

/-! ## The reader follows the specification -/

/-- The reader reports a failure: an exception or `false`. -/
def PRes.Bad {α : Type} (exc : Bool) : PRes α → Prop
  | .ub => False
  | .threw _ _ => exc = true
  | .done ok _ => exc = false ∧ ok = false

theorem PRes.Bad.map {α β : Type} {exc : Bool} {f : α → β} {r : PRes α} (h : r.Bad exc) : (r.map f).Bad exc := by
  cases r <;> exact h

theorem PRes.bad_reject {α : Type} (exc : Bool) (segs : List Seg) (e : Err) (target : α) : (PRes.reject exc segs e target).Bad exc := by
  cases exc <;> simp [PRes.reject, PRes.Bad]

/-- No bad member is masked: in the throwing variant only variants matter. -/
def Clean (env : Env) (exc : Bool) (t : Ty) (j : Json) : Prop := VariantsUnmasked env t j ∧ (exc = false → Unmasked env t j)

theorem Clean.child {env : Env} {exc : Bool} {t t' : Ty} {j j' : Json} (h : Clean env exc t j) (hc : Child env t j t' j') : Clean env exc t' j' :=
  ⟨h.1.child hc, fun he => (h.2 he).child hc⟩

/-- What is to be shown for one document and type. -/
def Follows (env : Env) (j : Json) (t : Ty) : Prop :=
  (∀ target v, Decodes env t j target v → VariantsUnmasked env t j → ∀ exc segs, pd env j exc t target segs = .done true v) ∧
  (∀ exc, Fails env t j → Clean env exc t j → ∀ target segs, (pd env j exc t target segs).Bad exc)

/-- The reader accepts or reports a failure. -/
def Settled (env : Env) (exc : Bool) (j : Json) (t : Ty) : Prop :=
  (∀ target, ∃ v, ∀ segs, pd env j exc t target segs = .done true v) ∨ ∀ target segs, (pd env j exc t target segs).Bad exc

theorem pSame_ok (env : Env) (t : Ty) (exc : Bool) (js : List Json) (vs : List Val) (h : DecodesAll env t js vs)
    (hj : ∀ j ∈ js, ∀ v, Decodes env t j (env.fresh t) v → ∀ segs, pd env j exc t (env.fresh t) segs = .done true v) :
    ∀ k segs, pSame env t exc js k segs = .done true vs := by
  induction js generalizing vs with
  | nil => cases h; intro k segs; rfl
  | cons j js ih =>
    cases h with
    | cons _ _ _ v vs h1 h2 =>
      intro k segs
      simp only [pSame, hj j (by simp) v h1, ih vs h2 (fun j h => hj j (by simp [h])), PRes.map]

theorem pSame_bad (env : Env) (t : Ty) (exc : Bool) (js : List Json) (hs : ∀ j ∈ js, Settled env exc j t)
    (hb : ∃ j ∈ js, ∀ target segs, (pd env j exc t target segs).Bad exc) : ∀ k segs, (pSame env t exc js k segs).Bad exc := by
  induction js with
  | nil => obtain ⟨j, hj, _⟩ := hb; cases hj
  | cons j js ih =>
    intro k segs
    have hbad : (∀ target segs, (pd env j exc t target segs).Bad exc) → (pSame env t exc (j :: js) k segs).Bad exc := by
      intro h
      have h := h (env.fresh t) (.index k :: segs)
      simp only [pSame]
      cases hp : pd env j exc t (env.fresh t) (.index k :: segs) with
      | ub => rw [hp] at h; exact h
      | threw s e => rw [hp] at h; exact h
      | done ok v =>
        rw [hp] at h
        obtain ⟨h1, h2⟩ := h
        subst h2
        exact ⟨h1, rfl⟩
    rcases hs j (by simp) with hok | hb'
    · obtain ⟨j', hj', hb⟩ := hb
      rcases List.mem_cons.1 hj' with rfl | hj'
      · exact hbad hb
      · obtain ⟨v, hv⟩ := hok (env.fresh t)
        simp only [pSame, hv]
        exact (ih (fun j hj => hs j (by simp [hj])) ⟨j', hj', hb⟩ (k + 1) segs).map
    · exact hbad hb'

theorem pEntries_ok (env : Env) (t : Ty) (exc : Bool) (ms : List (Str × Json)) (kvs : List (Str × Val)) (h : DecodesEntries env t ms kvs)
    (hj : ∀ p ∈ ms, ∀ v, Decodes env t p.2 (env.fresh t) v → ∀ segs, pd env p.2 exc t (env.fresh t) segs = .done true v) :
    ∀ segs, pEntries env t exc ms segs = .done true kvs := by
  induction ms generalizing kvs with
  | nil => cases h; intro segs; rfl
  | cons p ms ih =>
    cases h with
    | cons _ k j _ v kvs h1 h2 =>
      intro segs
      simp only [pEntries, hj (k, j) (by simp) v h1, ih kvs h2 (fun j h => hj j (by simp [h])), PRes.map]

theorem pEntries_bad (env : Env) (t : Ty) (exc : Bool) (ms : List (Str × Json)) (hs : ∀ p ∈ ms, Settled env exc p.2 t)
    (hb : ∃ p ∈ ms, ∀ target segs, (pd env p.2 exc t target segs).Bad exc) : ∀ segs, (pEntries env t exc ms segs).Bad exc := by
  induction ms with
  | nil => obtain ⟨j, hj, _⟩ := hb; cases hj
  | cons p ms ih =>
    obtain ⟨key, j⟩ := p
    intro segs
    have hbad : (∀ target segs, (pd env j exc t target segs).Bad exc) → (pEntries env t exc ((key, j) :: ms) segs).Bad exc := by
      intro h
      have h := h (env.fresh t) (Seg.name (cstr key) :: segs)
      simp only [pEntries]
      cases hp : pd env j exc t (env.fresh t) (Seg.name (cstr key) :: segs) with
      | ub => rw [hp] at h; exact h
      | threw s e => rw [hp] at h; exact h
      | done ok v =>
        rw [hp] at h
        obtain ⟨h1, h2⟩ := h
        subst h2
        exact ⟨h1, rfl⟩
    rcases hs (key, j) (by simp) with hok | hb'
    · obtain ⟨j', hj', hb⟩ := hb
      rcases List.mem_cons.1 hj' with rfl | hj'
      · exact hbad hb
      · obtain ⟨v, hv⟩ := hok (env.fresh t)
        simp only [pEntries, hv]
        exact (ih (fun j hj => hs j (by simp [hj])) ⟨j', hj', hb⟩ segs).map
    · exact hbad hb'

theorem pTuple_ok (env : Env) (exc : Bool) (js : List Json) : ∀ (ts : List Ty) (targets vs : List Val), DecodesEach env ts js targets vs →
    (∀ (i : Nat) (t : Ty) (j : Json), ts[i]? = some t → js[i]? = some j → ∀ tg v, Decodes env t j tg v → ∀ segs, pd env j exc t tg segs = .done true v) →
    ∀ k segs, pTuple env exc js ts targets k segs = .done true vs := by
  induction js with
  | nil => intro ts targets vs h hj k segs; cases h; rfl
  | cons j js ih =>
    intro ts targets vs h hj k segs
    cases h with
    | cons t ts _ _ _ v vs h1 h2 =>
      simp only [pTuple, hj 0 t j rfl rfl _ v h1,
        ih ts targets.tail vs h2 (fun i t' j' h3 h4 => hj (i + 1) t' j' (by simpa using h3) (by simpa using h4)), PRes.map]

theorem pTuple_bad (env : Env) (exc : Bool) (js : List Json) : ∀ (ts : List Ty), (∀ (i : Nat) (t : Ty) (j : Json), ts[i]? = some t → js[i]? = some j → Settled env exc j t) →
    (∃ (i : Nat) (t : Ty) (j : Json), ts[i]? = some t ∧ js[i]? = some j ∧ ∀ target segs, (pd env j exc t target segs).Bad exc) →
    ∀ targets k segs, (pTuple env exc js ts targets k segs).Bad exc := by
  induction js with
  | nil => rintro ts hs ⟨i, t, j, _, h2, _⟩; simp at h2
  | cons j js ih =>
    intro ts hs hb targets k segs
    cases ts with
    | nil => obtain ⟨i, t, j, h1, _⟩ := hb; simp at h1
    | cons t ts =>
      have hbad : (∀ target segs, (pd env j exc t target segs).Bad exc) → (pTuple env exc (j :: js) (t :: ts) targets k segs).Bad exc := by
        intro h
        have h := h (targets.headD (env.fresh t)) (.index k :: segs)
        simp only [pTuple]
        cases hp : pd env j exc t (targets.headD (env.fresh t)) (.index k :: segs) with
        | ub => rw [hp] at h; exact h
        | threw s e => rw [hp] at h; exact h
        | done ok v =>
          rw [hp] at h
          obtain ⟨h1, h2⟩ := h
          subst h2
          exact ⟨h1, rfl⟩
      rcases hs 0 t j rfl rfl with hok | hb'
      · obtain ⟨i, t', j', h1, h2, hb⟩ := hb
        cases i with
        | zero => simp at h1 h2; subst h1; subst h2; exact hbad hb
        | succ i =>
          obtain ⟨v, hv⟩ := hok (targets.headD (env.fresh t))
          simp only [pTuple, hv]
          exact (ih ts (fun i t' j' h3 h4 => hs (i + 1) t' j' (by simpa using h3) (by simpa using h4))
            ⟨i, t', j', by simpa using h1, by simpa using h2, hb⟩ targets.tail (k + 1) segs).map
      · exact hbad hb'

theorem pMembers_ok (env : Env) (exc : Bool) (fields : List (Str × Json)) (segs : List Seg) (l : List Member) :
    ∀ (targets vs : List Val), DecodesMembers env fields l targets vs →
    (∀ m ∈ l, ∀ i j, findMember m.name fields = some (i, j) → ∀ tg v, Decodes env m.ty j tg v → ∀ segs, pd env j exc m.ty tg segs = .done true v) →
    pMembers env exc fields segs l targets true = .done true vs := by
  induction l with
  | nil => intro targets vs h _; cases h; rfl
  | cons m l ih =>
    intro targets vs h hj
    have hj' := fun m' (hm' : m' ∈ l) => hj m' (List.mem_cons_of_mem _ hm')
    cases h with
    | present _ _ _ _ i j v vs h1 h2 h3 h4 =>
      simp only [pMembers, h1, if_neg h2, hj m (by simp) i j h1 _ v h3, ih _ vs h4 hj', PRes.map]
    | some _ _ _ _ i j v vs h1 h2 h3 h4 =>
      simp only [pMembers, h1, if_pos h2, hj m (by simp) i j h1 _ v h3, ih _ vs h4 hj', PRes.map]
    | none _ _ _ _ vs h1 h2 h3 => simp only [pMembers, h1, h2, ih _ vs h3 hj', PRes.map]
    | keep _ _ _ _ vs h1 h2 h3 => simp only [pMembers, h1, h2, ih _ vs h3 hj', PRes.map]

/-- The first bad member throws. -/
theorem pMembers_throws (env : Env) (fields : List (Str × Json)) (segs : List Seg) (l : List Member)
    (hs : ∀ m ∈ l, ∀ i j, findMember m.name fields = some (i, j) → Settled env true j m.ty)
    (hb : ∃ m ∈ l, (∃ i j, findMember m.name fields = some (i, j) ∧ ∀ target segs, (pd env j true m.ty target segs).Bad true) ∨
      (findMember m.name fields = none ∧ m.kind = .required)) :
    ∀ targets res, (pMembers env true fields segs l targets res).Bad true := by
  induction l with
  | nil => obtain ⟨j, hj, _⟩ := hb; cases hj
  | cons m l ih =>
    intro targets res
    have hrest : (∃ m ∈ l, (∃ i j, findMember m.name fields = some (i, j) ∧ ∀ target segs, (pd env j true m.ty target segs).Bad true) ∨
        (findMember m.name fields = none ∧ m.kind = .required)) ∨
        ((∃ i j, findMember m.name fields = some (i, j) ∧ ∀ target segs, (pd env j true m.ty target segs).Bad true) ∨
        (findMember m.name fields = none ∧ m.kind = .required)) := by
      obtain ⟨m', hm', hb⟩ := hb
      rcases List.mem_cons.1 hm' with rfl | hm'
      · exact .inr hb
      · exact .inl ⟨m', hm', hb⟩
    have ih' := fun h => ih (fun m' hm' => hs m' (List.mem_cons_of_mem _ hm')) h
    simp only [pMembers]
    cases hf : findMember m.name fields with
    | none =>
      cases hk : m.kind with
      | required => exact rfl
      | optional =>
        rcases hrest with h | ⟨i, j, h, _⟩ | ⟨_, h⟩
        · exact (ih' h targets.tail res).map
        · rw [hf] at h; cases h
        · rw [hk] at h; cases h
      | default =>
        rcases hrest with h | ⟨i, j, h, _⟩ | ⟨_, h⟩
        · exact (ih' h targets.tail res).map
        · rw [hf] at h; cases h
        · rw [hk] at h; cases h
    | some q =>
      obtain ⟨i, j⟩ := q
      have hbad : (∀ target segs, (pd env j true m.ty target segs).Bad true) → ∀ tg sg (f : Bool → Val → PRes (List Val)),
          (match pd env j true m.ty tg sg with
          | .ub => .ub
          | .threw s e => .threw s e
          | .done ok v => f ok v : PRes (List Val)).Bad true := by
        intro h tg sg f
        have h := h tg sg
        cases hp : pd env j true m.ty tg sg with
        | ub => rw [hp] at h; exact h
        | threw s e => rw [hp] at h; exact h
        | done ok v =>
          rw [hp] at h
          obtain ⟨h1, h2⟩ := h
          cases h1
      simp only
      rcases hs m (by simp) i j hf with hok | hb'
      · rcases hrest with h | ⟨i', j', h, hbd⟩ | ⟨h, _⟩
        · obtain ⟨v, hv⟩ := hok (if m.kind = .optional then env.fresh m.ty else targets.headD (env.fresh m.ty))
          simp only [hv]
          exact (ih' h targets.tail true).map
        · rw [hf] at h; cases h; exact hbad hbd _ _ _
        · rw [hf] at h; cases h
      · exact hbad hb' _ _ _

/-- Members that do not matter keep the verdict. -/
theorem pMembers_irrelevant (env : Env) (exc : Bool) (fields : List (Str × Json)) (segs : List Seg) (l : List Member)
    (h : ∀ m ∈ l, Irrelevant fields m) : ∀ targets res, ∃ vs, pMembers env exc fields segs l targets res = .done res vs := by
  induction l with
  | nil => exact fun targets res => ⟨[], rfl⟩
  | cons m l ih =>
    intro targets res
    obtain ⟨h1, h2⟩ := h m (by simp)
    obtain ⟨vs, hvs⟩ := ih (fun m hm => h m (by simp [hm])) targets.tail res
    simp only [pMembers, h1]
    cases hk : m.kind with
    | required => exact absurd hk h2
    | optional => exact ⟨_, by simp only [hvs, PRes.map]; rfl⟩
    | default => exact ⟨_, by simp only [hvs, PRes.map]; rfl⟩

/-- The last member that matters decides. -/
theorem pMembers_last (env : Env) (fields : List (Str × Json)) (segs : List Seg) (pre : List Member) (m : Member) (post : List Member)
    (hpre : ∀ m' ∈ pre, ∀ i j, findMember m'.name fields = some (i, j) → ∀ tg segs, (pd env j false m'.ty tg segs).Returns)
    (hpost : ∀ m' ∈ post, Irrelevant fields m') (ok : Bool)
    (hm : (∃ i j, findMember m.name fields = some (i, j) ∧ ∀ target segs, ∃ v, pd env j false m.ty target segs = .done ok v) ∨
      (findMember m.name fields = none ∧ m.kind = .required ∧ ok = false)) :
    ∀ targets res, ∃ vs, pMembers env false fields segs (pre ++ m :: post) targets res = .done ok vs := by
  induction pre with
  | nil =>
    intro targets res
    simp only [List.nil_append, pMembers]
    rcases hm with ⟨i, j, hf, hv⟩ | ⟨hf, hk, hok⟩
    · obtain ⟨v, hv⟩ := hv (if m.kind = .optional then env.fresh m.ty else targets.headD (env.fresh m.ty)) (Seg.name (cstr m.name) :: segs)
      obtain ⟨vs, hvs⟩ := pMembers_irrelevant env false fields segs post hpost targets.tail ok
      simp only [hf, hv, hvs, PRes.map]
      exact ⟨_, rfl⟩
    · obtain ⟨vs, hvs⟩ := pMembers_irrelevant env false fields segs post hpost targets.tail false
      simp only [hf, hk, hvs, PRes.map, hok]
      exact ⟨_, rfl⟩
  | cons m' pre ih =>
    intro targets res
    have ih' := ih (fun m'' hm'' => hpre m'' (List.mem_cons_of_mem _ hm''))
    simp only [List.cons_append, pMembers]
    cases hf : findMember m'.name fields with
    | none =>
      cases m'.kind with
      | required => obtain ⟨vs, hvs⟩ := ih' targets.tail false; exact ⟨_, by simp only [hvs, PRes.map]; rfl⟩
      | optional => obtain ⟨vs, hvs⟩ := ih' targets.tail res; exact ⟨_, by simp only [hvs, PRes.map]; rfl⟩
      | default => obtain ⟨vs, hvs⟩ := ih' targets.tail res; exact ⟨_, by simp only [hvs, PRes.map]; rfl⟩
    | some q =>
      obtain ⟨i, j⟩ := q
      obtain ⟨ok', v, hv⟩ := hpre m' (by simp) i j hf (if m'.kind = .optional then env.fresh m'.ty else targets.headD (env.fresh m'.ty))
        (Seg.name (cstr m'.name) :: segs)
      obtain ⟨vs, hvs⟩ := ih' targets.tail ok'
      exact ⟨_, by simp only [hv, hvs, PRes.map]; rfl⟩

theorem pAll_ok (env : Env) (j : Json) (ts : List Ty) (i : Nat) (t : Ty) (v : Val) (h1 : ts[i]? = some t)
    (h2 : ∀ (k : Nat) (t' : Ty), k < i → ts[k]? = some t' → ∀ target segs, (pd env j false t' target segs).Bad false)
    (h3 : ∀ segs, pd env j false t (env.fresh t) segs = .done true v) :
    ∀ n segs, pAll env j ts n segs = .done true (.alt (n + i) v) := by
  induction ts generalizing i with
  | nil => simp at h1
  | cons t' ts ih =>
    intro n segs
    cases i with
    | zero =>
      simp at h1
      subst h1
      simp only [pAll, h3, Nat.add_zero]
    | succ i =>
      have hb := h2 0 t' (by omega) rfl (env.fresh t') segs
      simp only [pAll]
      cases hp : pd env j false t' (env.fresh t') segs with
      | ub => rw [hp] at hb; exact hb.elim
      | threw s e => rw [hp] at hb; cases hb
      | done ok w =>
        rw [hp] at hb
        obtain ⟨_, rfl⟩ := hb
        simp only
        rw [ih i (by simpa using h1) (fun k t'' hk ht => h2 (k + 1) t'' (by omega) (by simpa using ht)) (n + 1) segs]
        congr 2
        omega

theorem pAll_bad (env : Env) (j : Json) (ts : List Ty) (h : ∀ t ∈ ts, ∀ target segs, (pd env j false t target segs).Bad false) :
    ∀ n segs, ∃ v, pAll env j ts n segs = .done false v := by
  induction ts with
  | nil => intro n segs; exact ⟨_, rfl⟩
  | cons t ts ih =>
    intro n segs
    have hb := h t (by simp) (env.fresh t) segs
    simp only [pAll]
    cases hp : pd env j false t (env.fresh t) segs with
    | ub => rw [hp] at hb; exact hb.elim
    | threw s e => rw [hp] at hb; cases hb
    | done ok w =>
      rw [hp] at hb
      obtain ⟨_, rfl⟩ := hb
      exact ih (fun t ht => h t (by simp [ht])) (n + 1) segs

theorem cls_bad (env : Env) (exc : Bool) (c : Nat) (ms : List (Str × Json))
    (hfol : ∀ m ∈ env.members c, ∀ i j, findMember m.name ms = some (i, j) → Settled env exc j m.ty ∧
      (Fails env m.ty j → ∀ target segs, (pd env j exc m.ty target segs).Bad exc))
    (hlast : exc = false → LastDecides env c ms) (hbad : ∃ m ∈ env.members c, BadMember env ms m) (segs : List Seg) (targets : List Val) :
    (pMembers env exc ms segs (env.members c) targets true).Bad exc := by
  cases exc with
  | true =>
    obtain ⟨m, hm, hb⟩ := hbad
    refine pMembers_throws env ms segs (env.members c) (fun m hm i j hf => (hfol m hm i j hf).1) ⟨m, hm, ?_⟩ targets true
    rcases hb with ⟨i, j, hf, hfail⟩ | h
    · exact .inl ⟨i, j, hf, (hfol m hm i j hf).2 hfail⟩
    · exact .inr h
  | false =>
    obtain ⟨pre, m, post, he, hb, hpost⟩ := hlast rfl hbad
    have hm : m ∈ env.members c := by rw [he]; simp
    obtain ⟨vs, hvs⟩ := pMembers_last env ms segs pre m post (fun m' hm' i j hf tg sg => by
        rcases (hfol m' (by rw [he]; simp [hm']) i j hf).1 with h | h
        · obtain ⟨v, hv⟩ := h tg
          exact ⟨_, _, hv sg⟩
        · have h := h tg sg
          cases hp : pd env j false m'.ty tg sg with
          | ub => rw [hp] at h; exact h.elim
          | threw s e => rw [hp] at h; cases h
          | done ok v => exact ⟨_, _, rfl⟩) hpost false (by
        rcases hb with ⟨i, j, hf, hfail⟩ | ⟨hf, hk⟩
        · refine .inl ⟨i, j, hf, fun tg sg => ?_⟩
          have h := (hfol m hm i j hf).2 hfail tg sg
          cases hp : pd env j false m.ty tg sg with
          | ub => rw [hp] at h; exact h.elim
          | threw s e => rw [hp] at h; cases h
          | done ok v => rw [hp] at h; obtain ⟨_, rfl⟩ := h; exact ⟨_, rfl⟩
        · exact .inr ⟨hf, hk, rfl⟩) targets true
    rw [he, hvs]
    exact ⟨rfl, rfl⟩

theorem follows (env : Env) (hu : env.Unshared) : ∀ j t, t.unshared = true → Calm env j → Follows env j t := by
  apply lexInd
  intro j t ihj iht ht hc
  -- components are settled
  have settle : ∀ exc t' j', Follows env j' t' → t'.unshared = true → Clean env exc t' j' → Settled env exc j' t' := by
    intro exc t' j' hfol ht' hcl
    rcases verdict env hu j' t' ht' with hd | hf
    · refine .inl fun target => ?_
      obtain ⟨v, hv⟩ := hd target
      exact ⟨v, fun segs => hfol.1 target v hv hcl.1 exc segs⟩
    · exact .inr fun target segs => hfol.2 exc hf hcl target segs
  have bad_arr : ∀ exc target segs j t, t.wantsArray = true → (∀ js, j ≠ .arr js) → (pd env j exc t target segs).Bad exc := by
    intro exc target segs j t hw hj
    rw [pd_not_arr env exc target segs j t hj (by cases t <;> simp_all [Ty.wantsArray])]
    exact PRes.bad_reject ..
  have bad_obj : ∀ exc target segs j t, t.wantsObject = true → (∀ ms, j ≠ .obj ms) → (pd env j exc t target segs).Bad exc := by
    intro exc target segs j t hw hj
    rw [pd_not_obj env exc target segs j t hj (by cases t <;> simp_all [Ty.wantsObject])]
    exact PRes.bad_reject ..
  constructor
  · intro target v hd hv exc segs
    cases hd with
    | prim p _ _ pv h => rw [pd_prim, (desPrim_ok env p j pv).2 h]
    | vec t js _ vs h =>
      rw [pd_vec env hu _ _ _ js t ht, pSame_ok env t exc js vs h, PRes.map]
      exact fun j hj v hd segs => (ihj j (size_item hj) t ht (hc.item hj)).1 _ v hd (hv.child (.vec t js j hj)) exc segs
    | arr n t js _ vs hl h =>
      rw [pd_arr env hu _ _ _ js n t ht, pSame_ok env t exc js vs h, if_pos hl]
      exact fun j hj v hd segs => (ihj j (size_item hj) t ht (hc.item hj)).1 _ v hd (hv.child (.arr n t js j hj)) exc segs
    | set t js _ vs h =>
      rw [pd_set env hu _ _ _ js t ht, pSame_ok env t exc js vs h, PRes.map]
      exact fun j hj v hd segs => (ihj j (size_item hj) t ht (hc.item hj)).1 _ v hd (hv.child (.set t js j hj)) exc segs
    | map o t ms _ kvs h =>
      rw [pd_map env hu _ _ _ ms o t ht, pEntries_ok env t exc ms kvs h, PRes.map]
      exact fun p hp v hd segs => (ihj p.2 (size_field hp) t ht (hc.field hp)).1 _ v hd (hv.child (.map o t ms p hp)) exc segs
    | dict t js _ vs h =>
      have ht' : (Ty.tuple [.prim .str, t]).unshared = true := by simpa [Ty.unshared, Ty.unshareds] using ht
      rw [pd_dict env hu _ _ _ js t ht, pSame_ok env _ exc js vs h, PRes.map]
      exact fun j hj v hd segs => (ihj j (size_item hj) _ ht' (hc.item hj)).1 _ v hd (hv.child (.dict t js j hj)) exc segs
    | tuple ts js _ vs h =>
      have hl : js.length = ts.length := by
        have : ∀ (js : List Json) (ts : List Ty) (targets vs : List Val), DecodesEach env ts js targets vs → js.length = ts.length := by
          intro js
          induction js with
          | nil => intro ts targets vs h; cases h; rfl
          | cons j js ih =>
            intro ts targets vs h
            cases h with
            | cons t ts _ _ _ v vs h3 h4 => simp [ih ts _ vs h4]
        exact this js ts _ vs h
      rw [pd_tuple env hu _ _ _ js ts ht, if_pos hl, pTuple_ok env exc js ts _ vs h, PRes.map]
      exact fun i t j h1 h2 tg v hd segs => (ihj j (size_item (List.mem_of_getElem? h2)) t ((Ty.unshareds_iff ts).1 ht t (List.mem_of_getElem? h1))
        (hc.item (List.mem_of_getElem? h2))).1 tg v hd (hv.child (.tuple ts js i t j h1 h2)) exc segs
    | variant ts _ _ i t v h1 h2 h3 =>
      have hself : Unmasked env (.variant ts) j := hv ts j .self
      have hun : ∀ t ∈ ts, t.unshared = true := (Ty.unshareds_iff ts).1 ht
      rw [pd_variant env hu _ _ _ j ts ht, pAll_ok env j ts i t v h1]
      · simp
      · intro k t' hk hkt tg segs
        have hm := List.mem_of_getElem? hkt
        exact (iht t' (size_alt hm) (hun t' hm) hc).2 false (h2 k t' hk hkt)
          ⟨hv.child (.variant ts j t' hm), fun _ => hself.child (.variant ts j t' hm)⟩ tg segs
      · intro segs
        have hm := List.mem_of_getElem? h1
        exact (iht t (size_alt hm) (hun t hm) hc).1 _ v h3 (hv.child (.variant ts j t hm)) false segs
    | cls c ms _ vs h =>
      rw [pd_cls env hu _ _ _ ms c, pMembers_ok env exc ms segs (env.members c) _ vs h, PRes.map]
      exact fun m hm i j hf tg v hd segs => (ihj j (size_field (findMember_mem hf)) m.ty (hu c m hm) (hc.field (findMember_mem hf))).1 tg v hd
        (hv.child (.cls c ms m i j hm hf)) exc segs
    | uptr t _ _ v h => rw [pd_uptr env hu _ _ _ j t ht, (iht t (by simp) ht hc).1 _ v h (hv.child (.uptr t j)) exc segs]
  · intro exc hf hcl target segs
    cases hf with
    | prim p _ h =>
      rw [pd_prim]
      cases hp : desPrim env p j with
      | ub => exact absurd hp (desPrim_calm env p j hc)
      | reject e => exact PRes.bad_reject ..
      | ok pv => exact absurd ((desPrim_ok env p j pv).1 hp) (h pv)
    | array _ _ hw hj => exact bad_arr exc target segs j t hw hj
    | object _ _ hw hj => exact bad_obj exc target segs j t hw hj
    | vec t js j' hj' hf =>
      rw [pd_vec env hu _ _ _ js t ht]
      refine (pSame_bad env t exc js (fun j hj => settle exc t j (ihj j (size_item hj) t ht (hc.item hj)) ht (hcl.child (.vec t js j hj)))
        ⟨j', hj', fun tg sg => ?_⟩ 0 segs).map
      exact (ihj j' (size_item hj') t ht (hc.item hj')).2 exc hf (hcl.child (.vec t js j' hj')) tg sg
    | arr n t js j' hj' hf =>
      rw [pd_arr env hu _ _ _ js n t ht]
      split
      · have h := pSame_bad env t exc js (fun j hj => settle exc t j (ihj j (size_item hj) t ht (hc.item hj)) ht (hcl.child (.arr n t js j hj)))
          ⟨j', hj', fun tg sg => (ihj j' (size_item hj') t ht (hc.item hj')).2 exc hf (hcl.child (.arr n t js j' hj')) tg sg⟩ 0 segs
        cases hp : pSame env t exc js 0 segs with
        | ub => rw [hp] at h; exact h
        | threw s e => rw [hp] at h; exact h
        | done ok vs =>
          rw [hp] at h
          obtain ⟨h1, rfl⟩ := h
          exact ⟨h1, rfl⟩
      · exact PRes.bad_reject ..
    | arrLength n t js hl =>
      rw [pd_arr env hu _ _ _ js n t ht, if_neg hl]
      exact PRes.bad_reject ..
    | set t js j' hj' hf =>
      rw [pd_set env hu _ _ _ js t ht]
      refine (pSame_bad env t exc js (fun j hj => settle exc t j (ihj j (size_item hj) t ht (hc.item hj)) ht (hcl.child (.set t js j hj)))
        ⟨j', hj', fun tg sg => ?_⟩ 0 segs).map
      exact (ihj j' (size_item hj') t ht (hc.item hj')).2 exc hf (hcl.child (.set t js j' hj')) tg sg
    | map o t ms p' hp' hf =>
      rw [pd_map env hu _ _ _ ms o t ht]
      refine (pEntries_bad env t exc ms (fun p hp => settle exc t p.2 (ihj p.2 (size_field hp) t ht (hc.field hp)) ht (hcl.child (.map o t ms p hp)))
        ⟨p', hp', fun tg sg => ?_⟩ segs).map
      exact (ihj p'.2 (size_field hp') t ht (hc.field hp')).2 exc hf (hcl.child (.map o t ms p' hp')) tg sg
    | dict t js j' hj' hf =>
      have ht' : (Ty.tuple [.prim .str, t]).unshared = true := by simpa [Ty.unshared, Ty.unshareds] using ht
      rw [pd_dict env hu _ _ _ js t ht]
      refine (pSame_bad env _ exc js (fun j hj => settle exc _ j (ihj j (size_item hj) _ ht' (hc.item hj)) ht' (hcl.child (.dict t js j hj)))
        ⟨j', hj', fun tg sg => ?_⟩ 0 segs).map
      exact (ihj j' (size_item hj') _ ht' (hc.item hj')).2 exc hf (hcl.child (.dict t js j' hj')) tg sg
    | tuple ts js i t j' h1 h2 hf =>
      have hun : ∀ t ∈ ts, t.unshared = true := (Ty.unshareds_iff ts).1 ht
      rw [pd_tuple env hu _ _ _ js ts ht]
      split
      · refine (pTuple_bad env exc js ts (fun i t j h1 h2 => ?_) ⟨i, t, j', h1, h2, fun tg sg => ?_⟩ _ 0 segs).map
        · have hm := List.mem_of_getElem? h2
          have hmt := hun t (List.mem_of_getElem? h1)
          exact settle exc t j (ihj j (size_item hm) t hmt (hc.item hm)) hmt (hcl.child (.tuple ts js i t j h1 h2))
        · have hm := List.mem_of_getElem? h2
          have hmt := hun t (List.mem_of_getElem? h1)
          exact (ihj j' (size_item hm) t hmt (hc.item hm)).2 exc hf (hcl.child (.tuple ts js i t j' h1 h2)) tg sg
      · exact PRes.bad_reject ..
    | tupleLength ts js hl =>
      rw [pd_tuple env hu _ _ _ js ts ht, if_neg hl]
      exact PRes.bad_reject ..
    | variant ts _ h =>
      have hself : Unmasked env (.variant ts) j := hcl.1 ts j .self
      have hun : ∀ t ∈ ts, t.unshared = true := (Ty.unshareds_iff ts).1 ht
      rw [pd_variant env hu _ _ _ j ts ht]
      obtain ⟨v, hv⟩ := pAll_bad env j ts (fun t hm tg sg => (iht t (size_alt hm) (hun t hm) hc).2 false (h t hm)
        ⟨hcl.1.child (.variant ts j t hm), fun _ => hself.child (.variant ts j t hm)⟩ tg sg) 0 segs
      rw [hv]
      exact PRes.bad_reject ..
    | uptr t _ h =>
      have h := (iht t (by simp) ht hc).2 exc h (hcl.child (.uptr t j)) (env.ctor t) segs
      rw [pd_uptr env hu _ _ _ j t ht]
      cases hp : pd env j exc t (env.ctor t) segs with
      | ub => rw [hp] at h; exact h
      | threw s e => rw [hp] at h; exact h
      | done ok vs =>
        rw [hp] at h
        obtain ⟨h1, rfl⟩ := h
        exact ⟨h1, rfl⟩
    | member c ms m i j' hm hfm hf =>
      rw [pd_cls env hu _ _ _ ms c]
      apply PRes.Bad.map
      have hbad : ∃ m ∈ env.members c, BadMember env ms m := ⟨m, hm, .inl ⟨i, j', hfm, hf⟩⟩
      refine cls_bad env exc c ms (fun m hm i j hf => ?_) (fun he => hcl.2 he c ms .self) hbad segs _
      have hfol := ihj j (size_field (findMember_mem hf)) m.ty (hu c m hm) (hc.field (findMember_mem hf))
      have hcl' := hcl.child (.cls c ms m i j hm hf)
      exact ⟨settle exc m.ty j hfol (hu c m hm) hcl', fun h => hfol.2 exc h hcl'⟩
    | missing c ms m hm hfm hk =>
      rw [pd_cls env hu _ _ _ ms c]
      apply PRes.Bad.map
      have hbad : ∃ m ∈ env.members c, BadMember env ms m := ⟨m, hm, .inr ⟨hfm, hk⟩⟩
      refine cls_bad env exc c ms (fun m hm i j hf => ?_) (fun he => hcl.2 he c ms .self) hbad segs _
      have hfol := ihj j (size_field (findMember_mem hf)) m.ty (hu c m hm) (hc.field (findMember_mem hf))
      have hcl' := hcl.child (.cls c ms m i j hm hf)
      exact ⟨settle exc m.ty j hfol (hu c m hm) hcl', fun h => hfol.2 exc h hcl'⟩

end Verif.Core
