import Verif.ReadLemmas

/-!
# More about the DOM reader: errors, unknown members, order of members, previous content
-/

namespace Verif.Core
open Verif.Numeric Verif.EnumConv

/-! ## Conforming documents are accepted -/

theorem PRes.map_done {α β : Type} {f : α → β} {r : PRes α} {ok : Bool} {b : β} (h : r.map f = .done ok b) : ∃ a, r = .done ok a ∧ f a = b := by
  cases r <;> simp [PRes.map] at h
  exact ⟨_, by rw [h.1], h.2⟩

/-- The reader accepts. -/
def PRes.Accepts {α : Type} (r : PRes α) : Prop := ∃ a, r = .done true a

theorem PRes.Accepts.map {α β : Type} {f : α → β} {r : PRes α} (h : r.Accepts) : (r.map f).Accepts := by
  obtain ⟨a, rfl⟩ := h
  exact ⟨f a, rfl⟩

theorem pSame_accepts (env : Env) (t : Ty) (exc : Bool) (js : List Json) (h : ∀ j ∈ js, ∀ tg segs, (pd env j exc t tg segs).Accepts) :
    ∀ k segs, (pSame env t exc js k segs).Accepts := by
  induction js with
  | nil => exact fun k segs => ⟨_, rfl⟩
  | cons j js ih =>
    intro k segs
    obtain ⟨v, hv⟩ := h j (by simp) (env.fresh t) (.index k :: segs)
    simp only [pSame, hv]
    exact (ih (fun j hj => h j (by simp [hj])) (k + 1) segs).map

/-- Masking does not make the reader reject: whatever conforms is accepted. -/
theorem accepts (env : Env) (hu : env.Unshared) : ∀ j t, t.unshared = true → Calm env j → ¬ Fails env t j → ∀ exc target segs,
    (pd env j exc t target segs).Accepts := by
  apply lexInd
  intro j t ihj iht ht hc hf exc target segs
  cases t with
  | prim p =>
    rw [pd_prim]
    cases hp : desPrim env p j with
    | ub => exact absurd hp (desPrim_calm env p j hc)
    | reject e =>
      refine absurd (.prim p j fun pv h => ?_) hf
      rw [← desPrim_ok, hp] at h
      cases h
    | ok pv => exact ⟨_, rfl⟩
  | vec t =>
    cases j with
    | arr js =>
      rw [pd_vec env hu _ _ _ js t ht]
      exact (pSame_accepts env t exc js (fun j hj => ihj j (size_item hj) t ht (hc.item hj) (fun h => hf (.vec t js j hj h)) exc) 0 segs).map
    | _ => exact absurd (.array _ _ rfl (by simp)) hf
  | arr n t =>
    cases j with
    | arr js =>
      rw [pd_arr env hu _ _ _ js n t ht]
      by_cases hl : js.length = n
      · obtain ⟨vs, hvs⟩ := pSame_accepts env t exc js (fun j hj => ihj j (size_item hj) t ht (hc.item hj) (fun h => hf (.arr n t js j hj h)) exc) 0 segs
        rw [if_pos hl, hvs]
        exact ⟨_, rfl⟩
      · exact absurd (.arrLength n t js hl) hf
    | _ => exact absurd (.array _ _ rfl (by simp)) hf
  | set t =>
    cases j with
    | arr js =>
      rw [pd_set env hu _ _ _ js t ht]
      exact (pSame_accepts env t exc js (fun j hj => ihj j (size_item hj) t ht (hc.item hj) (fun h => hf (.set t js j hj h)) exc) 0 segs).map
    | _ => exact absurd (.array _ _ rfl (by simp)) hf
  | map o t =>
    cases j with
    | obj ms =>
      rw [pd_map env hu _ _ _ ms o t ht]
      have : ∀ ms : List (Str × Json), (∀ p ∈ ms, ∀ tg segs, (pd env p.2 exc t tg segs).Accepts) → (pEntries env t exc ms segs).Accepts := by
        intro ms h
        induction ms with
        | nil => exact ⟨_, rfl⟩
        | cons p ms ih =>
          obtain ⟨key, j⟩ := p
          obtain ⟨v, hv⟩ := h (key, j) (by simp) (env.fresh t) (Seg.name (cstr key) :: segs)
          simp only [pEntries, hv]
          exact (ih (fun j hj => h j (by simp [hj]))).map
      exact (this ms (fun p hp => ihj p.2 (size_field hp) t ht (hc.field hp) (fun h => hf (.map o t ms p hp h)) exc)).map
    | _ => exact absurd (.object _ _ rfl (by simp)) hf
  | dict t =>
    cases j with
    | arr js =>
      have ht' : (Ty.tuple [.prim .str, t]).unshared = true := by simpa [Ty.unshared, Ty.unshareds] using ht
      rw [pd_dict env hu _ _ _ js t ht]
      exact (pSame_accepts env _ exc js (fun j hj => ihj j (size_item hj) _ ht' (hc.item hj) (fun h => hf (.dict t js j hj h)) exc) 0 segs).map
    | _ => exact absurd (.array _ _ rfl (by simp)) hf
  | tuple ts =>
    cases j with
    | arr js =>
      rw [pd_tuple env hu _ _ _ js ts ht]
      by_cases hl : js.length = ts.length
      · rw [if_pos hl]
        have : ∀ (js : List Json) (ts : List Ty) (targets : List Val) (k : Nat),
            (∀ (i : Nat) (t : Ty) (j : Json), ts[i]? = some t → js[i]? = some j → ∀ tg segs, (pd env j exc t tg segs).Accepts) →
            (pTuple env exc js ts targets k segs).Accepts := by
          intro js
          induction js with
          | nil => intro ts targets k h; cases ts <;> exact ⟨_, rfl⟩
          | cons j js ih =>
            intro ts targets k h
            cases ts with
            | nil => exact ⟨_, rfl⟩
            | cons t ts =>
              obtain ⟨v, hv⟩ := h 0 t j rfl rfl (targets.headD (env.fresh t)) (.index k :: segs)
              simp only [pTuple, hv]
              exact (ih ts targets.tail (k + 1) (fun i t' j' h1 h2 => h (i + 1) t' j' (by simpa using h1) (by simpa using h2))).map
        refine (this js ts _ 0 fun i t j h1 h2 => ?_).map
        exact ihj j (size_item (List.mem_of_getElem? h2)) t ((Ty.unshareds_iff ts).1 ht t (List.mem_of_getElem? h1)) (hc.item (List.mem_of_getElem? h2))
          (fun h => hf (.tuple ts js i t j h1 h2 h)) exc
      · exact absurd (.tupleLength ts js hl) hf
    | _ => exact absurd (.array _ _ rfl (by simp)) hf
  | variant ts =>
    have hun : ∀ t ∈ ts, t.unshared = true := (Ty.unshareds_iff ts).1 ht
    rw [pd_variant env hu _ _ _ j ts ht]
    have : ∀ (l : List Ty) (i : Nat), (∀ t ∈ l, t ∈ ts) → (∃ t ∈ l, ¬ Fails env t j) → (pAll env j l i segs).Accepts := by
      intro l
      induction l with
      | nil => rintro i _ ⟨t, ht, _⟩; cases ht
      | cons t l ih =>
        rintro i hsub ⟨t', ht', hnf⟩
        have hm := hsub t (by simp)
        obtain ⟨ok, v, hv⟩ := calm_returns env hu j t (hun t hm) hc (env.fresh t) segs
        simp only [pAll, hv]
        cases ok with
        | true => exact ⟨_, rfl⟩
        | false =>
          refine ih (i + 1) (fun t ht => hsub t (by simp [ht])) ?_
          rcases List.mem_cons.1 ht' with rfl | ht'
          · obtain ⟨w, hw⟩ := iht t' (size_alt hm) (hun t' hm) hc hnf false (env.fresh t') segs
            rw [hw] at hv
            cases hv
          · exact ⟨t', ht', hnf⟩
    have hex : ∃ t ∈ ts, ¬ Fails env t j := by
      refine Classical.byContradiction fun h => hf (.variant ts j fun t htm => Classical.byContradiction fun hn => h ⟨t, htm, hn⟩)
    obtain ⟨v, hv⟩ := this ts 0 (fun t h => h) hex
    rw [hv]
    exact ⟨_, rfl⟩
  | cls c =>
    cases j with
    | obj ms =>
      rw [pd_cls env hu _ _ _ ms c]
      have : ∀ (l : List Member) (targets : List Val), (∀ m ∈ l, ¬ BadMember env ms m ∧ m ∈ env.members c) → (pMembers env exc ms segs l targets true).Accepts := by
        intro l
        induction l with
        | nil => intro targets h; exact ⟨_, rfl⟩
        | cons m l ih =>
          intro targets h
          have ih' := ih targets.tail (fun m hm => h m (by simp [hm]))
          obtain ⟨hnb, hm⟩ := h m (by simp)
          simp only [pMembers]
          cases hfm : findMember m.name ms with
          | none =>
            cases hk : m.kind with
            | required => exact absurd (.inr ⟨hfm, hk⟩) hnb
            | optional => exact ih'.map
            | default => exact ih'.map
          | some q =>
            obtain ⟨i, j⟩ := q
            obtain ⟨v, hv⟩ := ihj j (size_field (findMember_mem hfm)) m.ty (hu c m hm) (hc.field (findMember_mem hfm)) (fun h => hnb (.inl ⟨i, j, hfm, h⟩)) exc
              (if m.kind = .optional then env.fresh m.ty else targets.headD (env.fresh m.ty)) (Seg.name (cstr m.name) :: segs)
            simp only [hv]
            exact ih'.map
      refine (this (env.members c) _ fun m hm => ⟨fun hb => hf ?_, hm⟩).map
      rcases hb with ⟨i, j, h1, h2⟩ | ⟨h1, h2⟩
      · exact .member c ms m i j hm h1 h2
      · exact .missing c ms m hm h1 h2
    | _ => exact absurd (.object _ _ rfl (by simp)) hf
  | uptr t =>
    obtain ⟨v, hv⟩ := iht t (by simp) ht hc (fun h => hf (.uptr t j h)) exc (env.ctor t) segs
    rw [pd_uptr env hu _ _ _ j t ht, hv]
    exact ⟨_, rfl⟩
  | sptr t => simp [Ty.unshared] at ht

/-! ## Where exceptions come from -/

/-- The types without components that are read from strings. -/
def Prim.wantsString : Prim → Bool
  | .str | .bytes | .time | .date | .enumStr _ => true
  | _ => false

/-- Why a document is not a value of a type without components. -/
inductive LeafReason (env : Env) : Prim → Json → Err → Prop
  | null (j : Json) : j ≠ .null → LeafReason env .null j .expectedNull
  | bool (j : Json) : (∀ b, j ≠ .bool b) → LeafReason env .bool j .expectedBool
  | int (t : IntTy) (j : Json) : (∀ v, (wideType t).InRange v → j ≠ .num (.int v)) → LeafReason env (.int t) j (.expectedInt (wideType t))
  | intRange (t : IntTy) (v : Int) : (wideType t).InRange v → ¬ t.InRange v → LeafReason env (.int t) (.num (.int v)) (.outOfRange t.signed)
  | enumInt (t : IntTy) (j : Json) : (∀ v, (wideType t).InRange v → j ≠ .num (.int v)) → LeafReason env (.enumInt t) j (.expectedInt (wideType t))
  | enumIntRange (t : IntTy) (v : Int) : (wideType t).InRange v → ¬ t.InRange v → LeafReason env (.enumInt t) (.num (.int v)) (.outOfRange t.signed)
  | flt (t : FltTy) (j : Json) : (∀ n, j ≠ .num n) → LeafReason env (.flt t) j .expectedNumber
  | string (p : Prim) (j : Json) : p.wantsString = true → (∀ s, j ≠ .str s) → LeafReason env p j .expectedString
  | bytes (s : Str) : Base64.decode s = none → LeafReason env .bytes (.str s) .badBase64
  | time (s : Str) : DateTime.parseDatetime env.clk s = .rejected → LeafReason env .time (.str s) (.badDatetime s)
  | date (s : Str) : DateTime.readDate env.clk s = .rejected → LeafReason env .date (.str s) (.badDate s)
  | enumStr (table : Table) (s : Str) : enumValue table s = none → LeafReason env (.enumStr table) (.str s) (.unknownEnumerator s)

theorem desInt_reject (t : IntTy) (j : Json) (e : Err) (h : desInt t j = .reject e) :
    (e = .expectedInt (wideType t) ∧ ∀ v, (wideType t).InRange v → j ≠ .num (.int v)) ∨
      (e = .outOfRange t.signed ∧ ∃ v, j = .num (.int v) ∧ (wideType t).InRange v ∧ ¬ t.InRange v) := by
  cases j with
  | num n =>
    have hok : ∀ v, t.InRange v → n = .int v → deserializeInt t n = .ok v := fun v hv hn => (Props.C15_deserialize_int_exact t n v).2 ⟨hn, hv⟩
    simp only [desInt] at h
    cases n with
    | dbl d => simp only [deserializeInt] at h; cases h; exact .inl ⟨rfl, by simp⟩
    | int v =>
      by_cases hw : (wideType t).InRange v
      · simp only [deserializeInt, JsonNum.is, hw, decide_true, if_true] at h hok
        split at h <;> rename_i hd <;> split at hd <;> cases hd <;> cases h
        rename_i hc
        refine .inr ⟨rfl, v, rfl, hw, fun hv => ?_⟩
        have := hok v hv rfl
        rw [if_neg hc] at this
        cases this
      · simp only [deserializeInt, JsonNum.is, hw, decide_false] at h
        cases h
        exact .inl ⟨rfl, fun v' hv' hj => by cases hj; exact hw hv'⟩
  | _ => cases h; exact .inl ⟨rfl, by simp⟩

theorem desPrim_reject (env : Env) (p : Prim) (j : Json) (e : Err) (h : desPrim env p j = .reject e) : LeafReason env p j e := by
  cases p with
  | null => cases j <;> first | (cases h; done) | (cases h; exact .null _ (by simp))
  | bool => cases j <;> first | (cases h; done) | (cases h; exact .bool _ (by simp))
  | int t =>
    rcases desInt_reject t j e h with ⟨rfl, h'⟩ | ⟨rfl, v, rfl, hw, h'⟩
    · exact .int t j h'
    · exact .intRange t v hw h'
  | enumInt t =>
    rcases desInt_reject t j e h with ⟨rfl, h'⟩ | ⟨rfl, v, rfl, hw, h'⟩
    · exact .enumInt t j h'
    · exact .enumIntRange t v hw h'
  | flt t => cases j <;> first | (cases h; done) | (cases h; exact .flt _ _ (by simp))
  | str => cases j <;> first | (cases h; done) | (cases h; exact .string _ _ rfl (by simp))
  | bytes =>
    cases j with
    | str s =>
      rw [desPrim_bytes] at h
      split at h <;> cases h
      exact .bytes s ‹_›
    | _ => cases h; exact .string _ _ rfl (by simp)
  | time =>
    cases j with
    | str s =>
      rw [desPrim_time] at h
      split at h <;> cases h
      exact .time s ‹_›
    | _ => cases h; exact .string _ _ rfl (by simp)
  | date =>
    cases j with
    | str s =>
      rw [desPrim_date] at h
      split at h <;> cases h
      exact .date s ‹_›
    | _ => cases h; exact .string _ _ rfl (by simp)
  | enumStr table =>
    cases j with
    | str s =>
      rw [desPrim_enumStr] at h
      split at h <;> cases h
      exact .enumStr table s ‹_›
    | _ => cases h; exact .string _ _ rfl (by simp)

/-- The node itself is at fault, for the given reason. -/
inductive LocalBad (env : Env) : Ty → Json → Err → Prop
  | leaf (p : Prim) (j : Json) (e : Err) : (∀ pv, ¬ LeafReads env p j pv) → LeafReason env p j e → LocalBad env (.prim p) j e
  | array (t : Ty) (j : Json) : t.wantsArray = true → (∀ js, j ≠ .arr js) → LocalBad env t j .expectedArray
  | object (t : Ty) (j : Json) : t.wantsObject = true → (∀ ms, j ≠ .obj ms) → LocalBad env t j .expectedObject
  | arrLength (n : Nat) (t : Ty) (js : List Json) : js.length ≠ n → LocalBad env (.arr n t) (.arr js) (.sizeMismatch n js.length)
  | tupleLength (ts : List Ty) (js : List Json) : js.length ≠ ts.length → LocalBad env (.tuple ts) (.arr js) (.sizeMismatch ts.length js.length)
  | missing (c : Nat) (ms : List (Str × Json)) (m : Member) : m ∈ env.members c → findMember m.name ms = none → m.kind = .required →
      LocalBad env (.cls c) (.obj ms) (.missing m.name)
  | variant (ts : List Ty) (j : Json) : (∀ t ∈ ts, Fails env t j) → LocalBad env (.variant ts) j .noAlternative

/-- The node reached by following names and indices. -/
def follow : Json → List Seg → Option Json
  | j, [] => some j
  | .arr js, .index i :: segs => (js[i]?).bind fun j => follow j segs
  | .obj ms, .named n :: segs => (findMember n ms).bind fun p => follow p.2 segs
  | _, _ :: _ => none

mutual
/-- Every object has pairwise distinct, non-empty keys without NUL, `/` and `~`, and arrays are shorter than
`2^32-1`. -/
def Tidy : Json → Prop
  | .arr js => js.length < 2 ^ 32 - 1 ∧ TidyAll js
  | .obj ms => (ms.map (·.1)).Nodup ∧ TidyFields ms
  | _ => True

/-- `Tidy` for the elements of an array. -/
def TidyAll : List Json → Prop
  | [] => True
  | j :: js => Tidy j ∧ TidyAll js

/-- `Tidy` for the members of an object. -/
def TidyFields : List (Str × Json) → Prop
  | [] => True
  | (k, j) :: ms => (k ≠ [] ∧ 0 ∉ k ∧ plain k = true) ∧ Tidy j ∧ TidyFields ms
end

theorem TidyAll_iff (js : List Json) : TidyAll js ↔ ∀ j ∈ js, Tidy j := by
  induction js with
  | nil => simp [TidyAll]
  | cons j js ih => simp [TidyAll, ih]

theorem TidyFields_iff (ms : List (Str × Json)) : TidyFields ms ↔ ∀ p ∈ ms, (p.1 ≠ [] ∧ 0 ∉ p.1 ∧ plain p.1 = true) ∧ Tidy p.2 := by
  induction ms with
  | nil => simp [TidyFields]
  | cons p ms ih => cases p; simp only [TidyFields, ih, List.mem_cons, forall_eq_or_imp, and_assoc]

theorem findMember_unique {α : Type} {ms : List (Str × α)} (hn : (ms.map (·.1)).Nodup) {p : Str × α} (hp : p ∈ ms) :
    ∃ i, findMember p.1 ms = some (i, p.2) := by
  induction ms with
  | nil => cases hp
  | cons q ms ih =>
    simp only [List.map_cons, List.nodup_cons] at hn
    simp only [findMember]
    rcases List.mem_cons.1 hp with rfl | hp
    · exact ⟨0, by rw [if_pos rfl]⟩
    · obtain ⟨i, hi⟩ := ih hn.2 hp
      have hne : q.1 ≠ p.1 := by
        intro h
        exact hn.1 (h ▸ List.mem_map_of_mem hp)
      exact ⟨i + 1, by rw [if_neg hne, hi]⟩

/-- The exception of a node: a path below the node to a node that is at fault. -/
def Blames (env : Env) (j : Json) (t : Ty) (segs s : List Seg) (e : Err) : Prop :=
  ∃ rel t' j', s = rel ++ segs ∧ (∀ x ∈ rel, x.Plain) ∧ follow j rel.reverse = some j' ∧ Part env t j t' j' ∧ LocalBad env t' j' e

theorem Blames.here {env : Env} {j : Json} {t : Ty} {segs : List Seg} {e : Err} (h : LocalBad env t j e) : Blames env j t segs segs e :=
  ⟨[], t, j, rfl, by simp, rfl, .self, h⟩

/-- Through a component at a segment. -/
theorem Blames.inside {env : Env} {j j1 : Json} {t t1 : Ty} {segs s : List Seg} {x : Seg} {e : Err} (h : Blames env j1 t1 (x :: segs) s e)
    (hx : x.Plain) (hf : ∀ rest, follow j (x :: rest) = follow j1 rest) (hc : Child env t j t1 j1) : Blames env j t segs s e := by
  obtain ⟨rel, t', j', rfl, hp, hfo, hpart, hb⟩ := h
  refine ⟨rel ++ [x], t', j', by simp, ?_, ?_, Part.of_child hc hpart, hb⟩
  · intro y hy
    rcases List.mem_append.1 hy with hy | hy
    · exact hp y hy
    · simp at hy; subst hy; exact hx
  · rw [List.reverse_append, List.reverse_singleton, List.singleton_append, hf, hfo]

/-- Through a component at the same place. -/
theorem Blames.through {env : Env} {j : Json} {t t1 : Ty} {segs s : List Seg} {e : Err} (h : Blames env j t1 segs s e)
    (hc : Child env t j t1 j) : Blames env j t segs s e := by
  obtain ⟨rel, t', j', h1, hp, hfo, hpart, hb⟩ := h
  exact ⟨rel, t', j', h1, hp, hfo, Part.of_child hc hpart, hb⟩

theorem PRes.map_threw {α β : Type} {f : α → β} {r : PRes α} {s : List Seg} {e : Err} (h : r.map f = .threw s e) : r = .threw s e := by
  cases r <;> simp [PRes.map] at h
  rw [h.1, h.2]

theorem PRes.reject_threw {α : Type} {exc : Bool} {segs s : List Seg} {e e' : Err} {target : α} (h : PRes.reject exc segs e target = .threw s e') :
    s = segs ∧ e' = e := by
  cases exc <;> simp [PRes.reject] at h
  exact ⟨h.1.symm, h.2.symm⟩

theorem pSame_threw (env : Env) (t : Ty) (js : List Json) (segs s : List Seg) (e : Err) : ∀ k, pSame env t true js k segs = .threw s e →
    ∃ i j, js[i]? = some j ∧ pd env j true t (env.fresh t) (.index (k + i) :: segs) = .threw s e := by
  induction js with
  | nil => intro k h; cases h
  | cons j js ih =>
    intro k h
    simp only [pSame] at h
    split at h
    · cases h
    · rename_i s' e' hp
      cases h
      exact ⟨0, j, rfl, hp⟩
    · cases h
    · obtain ⟨i, j', h1, h2⟩ := ih (k + 1) (PRes.map_threw h)
      exact ⟨i + 1, j', by simpa using h1, by rw [show k + (i + 1) = k + 1 + i by omega]; exact h2⟩

theorem pEntries_threw (env : Env) (t : Ty) (ms : List (Str × Json)) (segs s : List Seg) (e : Err) : pEntries env t true ms segs = .threw s e →
    ∃ p ∈ ms, pd env p.2 true t (env.fresh t) (Seg.name (cstr p.1) :: segs) = .threw s e := by
  induction ms with
  | nil => intro h; cases h
  | cons p ms ih =>
    intro h
    obtain ⟨key, j⟩ := p
    simp only [pEntries] at h
    split at h
    · cases h
    · rename_i s' e' hp
      cases h
      exact ⟨(key, j), by simp, hp⟩
    · cases h
    · obtain ⟨p, h1, h2⟩ := ih (PRes.map_threw h)
      exact ⟨p, by simp [h1], h2⟩

theorem pTuple_threw (env : Env) (js : List Json) (segs s : List Seg) (e : Err) : ∀ (ts : List Ty) (targets : List Val) (k : Nat), pTuple env true js ts targets k segs = .threw s e →
    ∃ i j t tg, js[i]? = some j ∧ ts[i]? = some t ∧ pd env j true t tg (.index (k + i) :: segs) = .threw s e := by
  induction js with
  | nil => intro ts targets k h; cases ts <;> cases h
  | cons j js ih =>
    intro ts targets k h
    cases ts with
    | nil => cases h
    | cons t ts =>
      simp only [pTuple] at h
      split at h
      · cases h
      · rename_i s' e' hp
        cases h
        exact ⟨0, j, t, _, rfl, rfl, hp⟩
      · cases h
      · obtain ⟨i, j', t', tg, h1, h2, h3⟩ := ih ts _ (k + 1) (PRes.map_threw h)
        exact ⟨i + 1, j', t', tg, by simpa using h1, by simpa using h2, by rw [show k + (i + 1) = k + 1 + i by omega]; exact h3⟩

theorem pMembers_threw (env : Env) (fs : List (Str × Json)) (segs s : List Seg) (e : Err) (l : List Member) : ∀ (targets : List Val) (res : Bool), pMembers env true fs segs l targets res = .threw s e →
    (∃ m ∈ l, ∃ i j tg, findMember m.name fs = some (i, j) ∧ pd env j true m.ty tg (Seg.name (cstr m.name) :: segs) = .threw s e) ∨
      ∃ m ∈ l, findMember m.name fs = none ∧ m.kind = .required ∧ s = segs ∧ e = .missing m.name := by
  induction l with
  | nil => intro targets res h; cases h
  | cons m l ih =>
    intro targets res h
    have lift : ((∃ m ∈ l, ∃ i j tg, findMember m.name fs = some (i, j) ∧ pd env j true m.ty tg (Seg.name (cstr m.name) :: segs) = .threw s e) ∨
      ∃ m ∈ l, findMember m.name fs = none ∧ m.kind = .required ∧ s = segs ∧ e = .missing m.name) →
      (∃ m' ∈ m :: l, ∃ i j tg, findMember m'.name fs = some (i, j) ∧ pd env j true m'.ty tg (Seg.name (cstr m'.name) :: segs) = .threw s e) ∨
      ∃ m' ∈ m :: l, findMember m'.name fs = none ∧ m'.kind = .required ∧ s = segs ∧ e = .missing m'.name := by
      rintro (⟨m', hm', h⟩ | ⟨m', hm', h⟩)
      · exact .inl ⟨m', by simp [hm'], h⟩
      · exact .inr ⟨m', by simp [hm'], h⟩
    simp only [pMembers] at h
    split at h
    · rename_i i j hf
      split at h
      · cases h
      · rename_i s' e' hp
        cases h
        exact .inl ⟨m, by simp, i, j, _, hf, hp⟩
      · exact lift (ih _ _ (PRes.map_threw h))
    · rename_i hf
      split at h
      · exact lift (ih _ _ (PRes.map_threw h))
      · exact lift (ih _ _ (PRes.map_threw h))
      · rename_i hk
        simp at h
        exact .inr ⟨m, by simp, hf, hk, h.1.symm, h.2.symm⟩

theorem blames (env : Env) (hu : env.Unshared) : ∀ j t, t.unshared = true → Calm env j → Tidy j → ∀ target segs s e,
    pd env j true t target segs = .threw s e → Blames env j t segs s e := by
  apply lexInd
  intro j t ihj iht ht hc hT target segs s e hp
  have item : ∀ {js : List Json} {t : Ty} {i : Nat} {j' : Json}, j = .arr js → js[i]? = some j' → (Seg.index i).Plain ∧ Tidy j' ∧ Calm env j' ∧
      sizeOf j' < sizeOf j ∧ ∀ rest, follow j (.index i :: rest) = follow j' rest := by
    intro js t i j' he h1
    subst he
    simp only [Tidy, TidyAll_iff] at hT
    have hm := List.mem_of_getElem? h1
    have hi : i < js.length := (List.getElem?_eq_some_iff.1 h1).1
    refine ⟨?_, hT.2 j' hm, hc.item hm, size_item hm, fun rest => by simp [follow, h1]⟩
    show i < 2 ^ 32 - 1
    omega
  have field : ∀ {ms : List (Str × Json)} {i : Nat} {k : Str} {j' : Json}, j = .obj ms → findMember k ms = some (i, j') →
      Seg.name (cstr k) = .named k ∧ (Seg.named k).Plain ∧ Tidy j' ∧ Calm env j' ∧
      sizeOf j' < sizeOf j ∧ ∀ rest, follow j (.named k :: rest) = follow j' rest := by
    intro ms i k j' he hf
    subst he
    simp only [Tidy, TidyFields_iff] at hT
    have hm := findMember_mem hf
    obtain ⟨⟨h1, h2, h3⟩, h4⟩ := hT.2 _ hm
    refine ⟨?_, h3, h4, hc.field hm, size_field hm, fun rest => by simp [follow, hf]⟩
    rw [cstr_eq _ h2, Seg.name, if_neg h1]
  cases t with
  | prim p =>
    rw [pd_prim] at hp
    split at hp
    · cases hp
    · rename_i e' hr
      obtain ⟨rfl, rfl⟩ := PRes.reject_threw hp
      refine .here (.leaf p j e (fun pv h => ?_) (desPrim_reject env p j e hr))
      rw [← desPrim_ok, hr] at h
      cases h
    · cases hp
  | vec t =>
    cases j with
    | arr js =>
      rw [pd_vec env hu _ _ _ js t ht] at hp
      obtain ⟨i, j', h1, h2⟩ := pSame_threw env t js segs s e 0 (PRes.map_threw hp)
      rw [Nat.zero_add] at h2
      obtain ⟨a1, a2, a3, a4, a5⟩ := item (t := t) rfl h1
      exact (ihj j' a4 t ht a3 a2 _ _ _ _ h2).inside a1 a5 (.vec t js j' (List.mem_of_getElem? h1))
    | _ =>
      rw [pd_not_arr env _ _ _ _ _ (by simp) (by simp)] at hp
      obtain ⟨rfl, rfl⟩ := PRes.reject_threw hp
      exact .here (.array _ _ rfl (by simp))
  | arr n t =>
    cases j with
    | arr js =>
      rw [pd_arr env hu _ _ _ js n t ht] at hp
      split at hp
      · split at hp
        · cases hp
        · rename_i s' e' hr
          cases hp
          obtain ⟨i, j', h1, h2⟩ := pSame_threw env t js segs s e 0 hr
          rw [Nat.zero_add] at h2
          obtain ⟨a1, a2, a3, a4, a5⟩ := item (t := t) rfl h1
          exact (ihj j' a4 t ht a3 a2 _ _ _ _ h2).inside a1 a5 (.arr n t js j' (List.mem_of_getElem? h1))
        · cases hp
        · cases hp
      · rename_i hl
        obtain ⟨rfl, rfl⟩ := PRes.reject_threw hp
        exact .here (.arrLength n t js hl)
    | _ =>
      rw [pd_not_arr env _ _ _ _ _ (by simp) (by simp)] at hp
      obtain ⟨rfl, rfl⟩ := PRes.reject_threw hp
      exact .here (.array _ _ rfl (by simp))
  | set t =>
    cases j with
    | arr js =>
      rw [pd_set env hu _ _ _ js t ht] at hp
      obtain ⟨i, j', h1, h2⟩ := pSame_threw env t js segs s e 0 (PRes.map_threw hp)
      rw [Nat.zero_add] at h2
      obtain ⟨a1, a2, a3, a4, a5⟩ := item (t := t) rfl h1
      exact (ihj j' a4 t ht a3 a2 _ _ _ _ h2).inside a1 a5 (.set t js j' (List.mem_of_getElem? h1))
    | _ =>
      rw [pd_not_arr env _ _ _ _ _ (by simp) (by simp)] at hp
      obtain ⟨rfl, rfl⟩ := PRes.reject_threw hp
      exact .here (.array _ _ rfl (by simp))
  | map o t =>
    cases j with
    | obj ms =>
      rw [pd_map env hu _ _ _ ms o t ht] at hp
      obtain ⟨q, h1, h2⟩ := pEntries_threw env t ms segs s e (PRes.map_threw hp)
      have hn : (ms.map (·.1)).Nodup := by simp only [Tidy] at hT; exact hT.1
      obtain ⟨i, hf⟩ := findMember_unique hn h1
      obtain ⟨a0, a1, a2, a3, a4, a5⟩ := field rfl hf
      rw [a0] at h2
      exact (ihj q.2 a4 t ht a3 a2 _ _ _ _ h2).inside a1 a5 (.map o t ms q h1)
    | _ =>
      rw [pd_not_obj env _ _ _ _ _ (by simp) (by simp)] at hp
      obtain ⟨rfl, rfl⟩ := PRes.reject_threw hp
      exact .here (.object _ _ rfl (by simp))
  | dict t =>
    cases j with
    | arr js =>
      have ht' : (Ty.tuple [.prim .str, t]).unshared = true := by simpa [Ty.unshared, Ty.unshareds] using ht
      rw [pd_dict env hu _ _ _ js t ht] at hp
      obtain ⟨i, j', h1, h2⟩ := pSame_threw env _ js segs s e 0 (PRes.map_threw hp)
      rw [Nat.zero_add] at h2
      obtain ⟨a1, a2, a3, a4, a5⟩ := item (t := t) rfl h1
      exact (ihj j' a4 _ ht' a3 a2 _ _ _ _ h2).inside a1 a5 (.dict t js j' (List.mem_of_getElem? h1))
    | _ =>
      rw [pd_not_arr env _ _ _ _ _ (by simp) (by simp)] at hp
      obtain ⟨rfl, rfl⟩ := PRes.reject_threw hp
      exact .here (.array _ _ rfl (by simp))
  | tuple ts =>
    cases j with
    | arr js =>
      rw [pd_tuple env hu _ _ _ js ts ht] at hp
      split at hp
      · obtain ⟨i, j', t, tg, h1, h1', h2⟩ := pTuple_threw env js segs s e ts _ 0 (PRes.map_threw hp)
        rw [Nat.zero_add] at h2
        obtain ⟨a1, a2, a3, a4, a5⟩ := item (t := t) rfl h1
        exact (ihj j' a4 t ((Ty.unshareds_iff ts).1 ht t (List.mem_of_getElem? h1')) a3 a2 _ _ _ _ h2).inside a1 a5 (.tuple ts js i t j' h1' h1)
      · rename_i hl
        obtain ⟨rfl, rfl⟩ := PRes.reject_threw hp
        exact .here (.tupleLength ts js hl)
    | _ =>
      rw [pd_not_arr env _ _ _ _ _ (by simp) (by simp)] at hp
      obtain ⟨rfl, rfl⟩ := PRes.reject_threw hp
      exact .here (.array _ _ rfl (by simp))
  | variant ts =>
    have hun : ∀ t ∈ ts, t.unshared = true := (Ty.unshareds_iff ts).1 ht
    rw [pd_variant env hu _ _ _ j ts ht] at hp
    have key : ∀ (l : List Ty) (i : Nat), (∀ t ∈ l, t ∈ ts) → (∃ v, pAll env j l i segs = .done true v) ∨
        ((∃ v, pAll env j l i segs = .done false v) ∧ ∀ t ∈ l, Fails env t j) := by
      intro l
      induction l with
      | nil => intro i h; exact .inr ⟨⟨_, rfl⟩, by simp⟩
      | cons t l ih =>
        intro i hsub
        have hm := hsub t (by simp)
        obtain ⟨ok, v, hv⟩ := calm_returns env hu j t (hun t hm) hc (env.fresh t) segs
        simp only [pAll, hv]
        cases ok with
        | true => exact .inl ⟨_, rfl⟩
        | false =>
          rcases ih (i + 1) (fun t ht => hsub t (by simp [ht])) with h | ⟨h, hall⟩
          · exact .inl h
          · refine .inr ⟨h, fun t' ht' => ?_⟩
            rcases List.mem_cons.1 ht' with rfl | ht'
            · refine Classical.byContradiction fun hn => ?_
              obtain ⟨w, hw⟩ := accepts env hu j t' (hun t' hm) hc hn false (env.fresh t') segs
              rw [hw] at hv
              cases hv
            · exact hall t' ht'
    rcases key ts 0 (fun t h => h) with ⟨v, hv⟩ | ⟨⟨v, hv⟩, hall⟩
    · rw [hv] at hp; cases hp
    · rw [hv] at hp
      obtain ⟨rfl, rfl⟩ := PRes.reject_threw hp
      exact .here (.variant ts j hall)
  | cls c =>
    cases j with
    | obj ms =>
      rw [pd_cls env hu _ _ _ ms c] at hp
      rcases pMembers_threw env ms segs s e (env.members c) _ true (PRes.map_threw hp) with ⟨m, hm, i, j', tg, hf, h2⟩ | ⟨m, hm, hf, hk, rfl, rfl⟩
      · obtain ⟨a0, a1, a2, a3, a4, a5⟩ := field rfl hf
        rw [a0] at h2
        exact (ihj j' a4 m.ty (hu c m hm) a3 a2 _ _ _ _ h2).inside a1 a5 (.cls c ms m i j' hm hf)
      · exact .here (.missing c ms m hm hf hk)
    | _ =>
      rw [pd_not_obj env _ _ _ _ _ (by simp) (by simp)] at hp
      obtain ⟨rfl, rfl⟩ := PRes.reject_threw hp
      exact .here (.object _ _ rfl (by simp))
  | uptr t =>
    rw [pd_uptr env hu _ _ _ j t ht] at hp
    split at hp
    · cases hp
    · rename_i s' e' hr
      cases hp
      exact (iht t (by simp) ht hc hT _ _ _ _ hr).through (.uptr t j)
    · cases hp
    · cases hp
  | sptr t => simp [Ty.unshared] at ht

/-! ## The two variants of the reader -/

/-- What the throwing variant returns, the boolean variant accepts with the same value. -/
def SameDone {α : Type} (r r' : PRes α) : Prop := ∀ ok a, r = .done ok a → ok = true ∧ r' = .done true a

theorem SameDone.map {α β : Type} {f : α → β} {r r' : PRes α} (h : SameDone r r') : SameDone (r.map f) (r'.map f) := by
  intro ok b hb
  obtain ⟨a, ha, rfl⟩ := PRes.map_done hb
  obtain ⟨h1, h2⟩ := h ok a ha
  exact ⟨h1, by rw [h2]; rfl⟩

theorem SameDone.reject {α : Type} (segs : List Seg) (e : Err) (tg : α) (r : PRes α) : SameDone (PRes.reject true segs e tg) r := by
  intro ok a h
  simp [PRes.reject] at h

theorem pSame_modes (env : Env) (t : Ty) (js : List Json) (h : ∀ j ∈ js, ∀ tg segs, SameDone (pd env j true t tg segs) (pd env j false t tg segs)) :
    ∀ k segs, SameDone (pSame env t true js k segs) (pSame env t false js k segs) := by
  induction js with
  | nil => intro k segs ok a ha; cases ha; exact ⟨rfl, rfl⟩
  | cons j js ih =>
    intro k segs
    have hj := h j (by simp) (env.fresh t) (.index k :: segs)
    simp only [pSame]
    cases hp : pd env j true t (env.fresh t) (.index k :: segs) with
    | ub => intro ok a ha; cases ha
    | threw s e => intro ok a ha; cases ha
    | done ok v =>
      obtain ⟨rfl, h2⟩ := hj ok v hp
      rw [h2]
      exact (ih (fun j hj => h j (by simp [hj])) (k + 1) segs).map

theorem modes (env : Env) (hu : env.Unshared) : ∀ j t, t.unshared = true → ∀ target segs,
    SameDone (pd env j true t target segs) (pd env j false t target segs) := by
  apply lexInd
  intro j t ihj iht ht target segs
  cases t with
  | prim p =>
    rw [pd_prim, pd_prim]
    cases desPrim env p j with
    | ub => intro ok a ha; cases ha
    | reject e => exact SameDone.reject _ _ _ _
    | ok pv => intro ok a ha; cases ha; exact ⟨rfl, rfl⟩
  | vec t =>
    cases j with
    | arr js =>
      rw [pd_vec env hu _ _ _ js t ht, pd_vec env hu _ _ _ js t ht]
      exact (pSame_modes env t js (fun j hj => ihj j (size_item hj) t ht) 0 segs).map
    | _ => rw [pd_not_arr env true _ _ _ _ (by simp) (by simp)]; exact SameDone.reject _ _ _ _
  | arr n t =>
    cases j with
    | arr js =>
      rw [pd_arr env hu _ _ _ js n t ht, pd_arr env hu _ _ _ js n t ht]
      split
      · have h := pSame_modes env t js (fun j hj => ihj j (size_item hj) t ht) 0 segs
        cases hp : pSame env t true js 0 segs with
        | ub => intro ok a ha; cases ha
        | threw s e => intro ok a ha; cases ha
        | done ok vs =>
          obtain ⟨rfl, h2⟩ := h ok vs hp
          rw [h2]
          intro ok a ha
          cases ha
          exact ⟨rfl, rfl⟩
      · exact SameDone.reject _ _ _ _
    | _ => rw [pd_not_arr env true _ _ _ _ (by simp) (by simp)]; exact SameDone.reject _ _ _ _
  | set t =>
    cases j with
    | arr js =>
      rw [pd_set env hu _ _ _ js t ht, pd_set env hu _ _ _ js t ht]
      exact (pSame_modes env t js (fun j hj => ihj j (size_item hj) t ht) 0 segs).map
    | _ => rw [pd_not_arr env true _ _ _ _ (by simp) (by simp)]; exact SameDone.reject _ _ _ _
  | map o t =>
    cases j with
    | obj ms =>
      rw [pd_map env hu _ _ _ ms o t ht, pd_map env hu _ _ _ ms o t ht]
      have : ∀ ms : List (Str × Json), (∀ p ∈ ms, ∀ tg segs, SameDone (pd env p.2 true t tg segs) (pd env p.2 false t tg segs)) →
          SameDone (pEntries env t true ms segs) (pEntries env t false ms segs) := by
        intro ms h
        induction ms with
        | nil => intro ok a ha; cases ha; exact ⟨rfl, rfl⟩
        | cons p ms ih =>
          obtain ⟨key, j⟩ := p
          have hj := h (key, j) (by simp) (env.fresh t) (Seg.name (cstr key) :: segs)
          simp only [pEntries]
          cases hp : pd env j true t (env.fresh t) (Seg.name (cstr key) :: segs) with
          | ub => intro ok a ha; cases ha
          | threw s e => intro ok a ha; cases ha
          | done ok v =>
            obtain ⟨rfl, h2⟩ := hj ok v hp
            rw [h2]
            exact (ih (fun j hj => h j (by simp [hj]))).map
      exact (this ms (fun p hp => ihj p.2 (size_field hp) t ht)).map
    | _ => rw [pd_not_obj env true _ _ _ _ (by simp) (by simp)]; exact SameDone.reject _ _ _ _
  | dict t =>
    cases j with
    | arr js =>
      have ht' : (Ty.tuple [.prim .str, t]).unshared = true := by simpa [Ty.unshared, Ty.unshareds] using ht
      rw [pd_dict env hu _ _ _ js t ht, pd_dict env hu _ _ _ js t ht]
      exact (pSame_modes env _ js (fun j hj => ihj j (size_item hj) _ ht') 0 segs).map
    | _ => rw [pd_not_arr env true _ _ _ _ (by simp) (by simp)]; exact SameDone.reject _ _ _ _
  | tuple ts =>
    cases j with
    | arr js =>
      rw [pd_tuple env hu _ _ _ js ts ht, pd_tuple env hu _ _ _ js ts ht]
      split
      · have : ∀ (js : List Json) (ts : List Ty) (targets : List Val) (k : Nat),
            (∀ j ∈ js, ∀ t ∈ ts, ∀ tg segs, SameDone (pd env j true t tg segs) (pd env j false t tg segs)) →
            SameDone (pTuple env true js ts targets k segs) (pTuple env false js ts targets k segs) := by
          intro js
          induction js with
          | nil => intro ts targets k h ok a ha; cases ts <;> (cases ha; exact ⟨rfl, rfl⟩)
          | cons j js ih =>
            intro ts targets k h
            cases ts with
            | nil => intro ok a ha; cases ha; exact ⟨rfl, rfl⟩
            | cons t ts =>
              have hj := h j (by simp) t (by simp) (targets.headD (env.fresh t)) (.index k :: segs)
              simp only [pTuple]
              cases hp : pd env j true t (targets.headD (env.fresh t)) (.index k :: segs) with
              | ub => intro ok a ha; cases ha
              | threw s e => intro ok a ha; cases ha
              | done ok v =>
                obtain ⟨rfl, h2⟩ := hj ok v hp
                rw [h2]
                exact (ih ts targets.tail (k + 1) (fun j hj t ht => h j (by simp [hj]) t (by simp [ht]))).map
        exact (this js ts _ 0 (fun j hj t ht' => ihj j (size_item hj) t ((Ty.unshareds_iff ts).1 ht t ht'))).map
      · exact SameDone.reject _ _ _ _
    | _ => rw [pd_not_arr env true _ _ _ _ (by simp) (by simp)]; exact SameDone.reject _ _ _ _
  | variant ts =>
    rw [pd_variant env hu _ _ _ j ts ht, pd_variant env hu _ _ _ j ts ht]
    cases pAll env j ts 0 segs with
    | ub => intro ok a ha; cases ha
    | threw s e => intro ok a ha; cases ha
    | done ok v =>
      cases ok with
      | true => intro ok a ha; cases ha; exact ⟨rfl, rfl⟩
      | false => exact SameDone.reject _ _ _ _
  | cls c =>
    cases j with
    | obj ms =>
      rw [pd_cls env hu _ _ _ ms c, pd_cls env hu _ _ _ ms c]
      have : ∀ (l : List Member) (targets : List Val), (∀ p ∈ ms, ∀ m ∈ l, ∀ tg segs, SameDone (pd env p.2 true m.ty tg segs) (pd env p.2 false m.ty tg segs)) →
          SameDone (pMembers env true ms segs l targets true) (pMembers env false ms segs l targets true) := by
        intro l
        induction l with
        | nil => intro targets h ok a ha; cases ha; exact ⟨rfl, rfl⟩
        | cons m l ih =>
          intro targets h
          have ih' := ih targets.tail (fun p hp m hm => h p hp m (by simp [hm]))
          simp only [pMembers]
          cases hf : findMember m.name ms with
          | none =>
            cases m.kind with
            | required => intro ok a ha; cases ha
            | optional => exact ih'.map
            | default => exact ih'.map
          | some q =>
            obtain ⟨i, j⟩ := q
            have hj := h (m.name, j) (findMember_mem hf) m (by simp)
              (if m.kind = .optional then env.fresh m.ty else targets.headD (env.fresh m.ty)) (Seg.name (cstr m.name) :: segs)
            simp only
            cases hp : pd env j true m.ty (if m.kind = .optional then env.fresh m.ty else targets.headD (env.fresh m.ty)) (Seg.name (cstr m.name) :: segs) with
            | ub => intro ok a ha; cases ha
            | threw s e => intro ok a ha; cases ha
            | done ok v =>
              obtain ⟨rfl, h2⟩ := hj ok v hp
              rw [h2]
              exact ih'.map
      exact (this (env.members c) _ (fun p hp m hm => ihj p.2 (size_field hp) m.ty (hu c m hm))).map
    | _ => rw [pd_not_obj env true _ _ _ _ (by simp) (by simp)]; exact SameDone.reject _ _ _ _
  | uptr t =>
    rw [pd_uptr env hu _ _ _ j t ht, pd_uptr env hu _ _ _ j t ht]
    have h := iht t (by simp) ht (env.ctor t) segs
    cases hp : pd env j true t (env.ctor t) segs with
    | ub => intro ok a ha; cases ha
    | threw s e => intro ok a ha; cases ha
    | done ok vs =>
      obtain ⟨rfl, h2⟩ := h ok vs hp
      rw [h2]
      intro ok a ha
      cases ha
      exact ⟨rfl, rfl⟩
  | sptr t => simp [Ty.unshared] at ht

/-! ## Unknown members and order of members -/

/-- A class reads only the first occurrence of each of its members. -/
theorem pMembers_congr (env : Env) (exc : Bool) (ms ms' : List (Str × Json)) (segs : List Seg) (l : List Member)
    (h : ∀ m ∈ l, (findMember m.name ms).map (·.2) = (findMember m.name ms').map (·.2)) :
    ∀ targets res, pMembers env exc ms segs l targets res = pMembers env exc ms' segs l targets res := by
  induction l with
  | nil => intro targets res; rfl
  | cons m l ih =>
    intro targets res
    have ih' := ih (fun m hm => h m (by simp [hm]))
    have hm := h m (by simp)
    simp only [pMembers]
    cases h1 : findMember m.name ms with
    | none =>
      rw [h1] at hm
      cases h2 : findMember m.name ms' with
      | none => simp only [ih']
      | some q => rw [h2] at hm; simp at hm
    | some p =>
      rw [h1] at hm
      cases h2 : findMember m.name ms' with
      | none => rw [h2] at hm; simp at hm
      | some q =>
        rw [h2] at hm
        simp only [Option.map_some, Option.some.injEq] at hm
        simp only [hm, ih']

theorem findMember_value {α : Type} (n : Str) (ms : List (Str × α)) : (findMember n ms).map (·.2) = ms.lookup n := by
  induction ms with
  | nil => rfl
  | cons p ms ih =>
    obtain ⟨k, a⟩ := p
    simp only [findMember, List.lookup_cons]
    by_cases h : k = n
    · subst h; simp
    · rw [if_neg h]
      have : (n == k) = false := by simpa using Ne.symm h
      rw [this, ← ih]
      cases findMember n ms <;> rfl

theorem lookup_filter {α : Type} (P : Str → Bool) (n : Str) (hn : P n = true) (ms : List (Str × α)) :
    (ms.filter fun p => P p.1).lookup n = ms.lookup n := by
  induction ms with
  | nil => rfl
  | cons p ms ih =>
    obtain ⟨k, a⟩ := p
    by_cases h : n = k
    · subst h
      simp [hn]
    · have hb : (n == k) = false := by simpa using h
      rw [List.filter_cons]
      split
      · simp [List.lookup_cons, hb, ih]
      · simp [List.lookup_cons, hb, ih]

theorem lookup_mem {α : Type} {n : Str} {a : α} {ms : List (Str × α)} (h : ms.lookup n = some a) : (n, a) ∈ ms := by
  rw [← findMember_value] at h
  cases hf : findMember n ms with
  | none => rw [hf] at h; cases h
  | some q =>
    rw [hf] at h
    simp only [Option.map_some, Option.some.injEq] at h
    subst h
    exact findMember_mem hf

theorem lookup_perm {α : Type} {ms ms' : List (Str × α)} (hp : ms.Perm ms') (hn : (ms.map (·.1)).Nodup) (n : Str) : ms.lookup n = ms'.lookup n := by
  have hn' : (ms'.map (·.1)).Nodup := (hp.map _).nodup hn
  cases h : ms'.lookup n with
  | none =>
    cases h2 : ms.lookup n with
    | none => rfl
    | some a =>
      have := lookup_of_mem hn' (hp.mem_iff.1 (lookup_mem h2))
      rw [h] at this
      cases this
  | some a => exact lookup_of_mem hn (hp.mem_iff.2 (lookup_mem h))

/-! ## Reordering members inside a document -/

mutual
/-- The second document results from the first by reordering the members of objects, at any depth; keys are
pairwise distinct (as C strings). -/
inductive Shuffle : Json → Json → Prop
  | same (j : Json) : Shuffle j j
  | arr (js js' : List Json) : ShuffleAll js js' → Shuffle (.arr js) (.arr js')
  | obj (ms ms' ms'' : List (Str × Json)) : (ms.map fun p => cstr p.1).Nodup → ms.Perm ms' → ShuffleFields ms' ms'' →
      Shuffle (.obj ms) (.obj ms'')

/-- `Shuffle` element by element. -/
inductive ShuffleAll : List Json → List Json → Prop
  | nil : ShuffleAll [] []
  | cons (j j' : Json) (js js' : List Json) : Shuffle j j' → ShuffleAll js js' → ShuffleAll (j :: js) (j' :: js')

/-- `Shuffle` member by member. -/
inductive ShuffleFields : List (Str × Json) → List (Str × Json) → Prop
  | nil : ShuffleFields [] []
  | cons (k : Str) (j j' : Json) (ms ms' : List (Str × Json)) : Shuffle j j' → ShuffleFields ms ms' → ShuffleFields ((k, j) :: ms) ((k, j') :: ms')
end

theorem ShuffleAll.length {js js' : List Json} (h : ShuffleAll js js') : js'.length = js.length := by
  induction js generalizing js' with
  | nil => cases h; rfl
  | cons j js ih =>
    cases h with
    | cons _ j' _ js' _ h => simp [ih h]

theorem ShuffleAll.get {js js' : List Json} (h : ShuffleAll js js') {i : Nat} {j : Json} (hj : js[i]? = some j) :
    ∃ j', js'[i]? = some j' ∧ Shuffle j j' := by
  induction js generalizing js' i with
  | nil => simp at hj
  | cons j0 js ih =>
    cases h with
    | cons _ j' _ js' h1 h2 =>
      cases i with
      | zero => simp at hj; subst hj; exact ⟨j', rfl, h1⟩
      | succ i => simpa using ih h2 (by simpa using hj)

theorem ShuffleFields.lookup {ms ms' : List (Str × Json)} (h : ShuffleFields ms ms') (n : Str) :
    (ms.lookup n = none ∧ ms'.lookup n = none) ∨ ∃ j j', ms.lookup n = some j ∧ ms'.lookup n = some j' ∧ Shuffle j j' := by
  induction ms generalizing ms' with
  | nil => cases h; exact .inl ⟨rfl, rfl⟩
  | cons p ms ih =>
    cases h with
    | cons k j j' _ ms' h1 h2 =>
      simp only [List.lookup_cons]
      cases n == k with
      | true => exact .inr ⟨j, j', rfl, rfl, h1⟩
      | false => exact ih h2

/-- The members of a class correspond. -/
theorem Shuffle.member {ms ms' ms'' : List (Str × Json)} (hn : (ms.map fun p => cstr p.1).Nodup) (hp : ms.Perm ms') (hf : ShuffleFields ms' ms'') (n : Str) :
    (findMember n ms = none ∧ findMember n ms'' = none) ∨
      ∃ i j i' j', findMember n ms = some (i, j) ∧ findMember n ms'' = some (i', j') ∧ Shuffle j j' := by
  have hn' : (ms.map (·.1)).Nodup := by
    have : (ms.map fun p => cstr p.1) = (ms.map (·.1)).map cstr := by simp
    rw [this] at hn
    exact List.Pairwise.of_map cstr (fun a b h he => h (by rw [he])) hn
  have h1 := findMember_value n ms
  have h2 := findMember_value n ms''
  rw [lookup_perm hp hn' n] at h1
  rcases hf.lookup n with ⟨h3, h4⟩ | ⟨j, j', h3, h4, hs⟩
  · rw [h3] at h1
    rw [h4] at h2
    simp only [Option.map_eq_none_iff] at h1 h2
    exact .inl ⟨h1, h2⟩
  · rw [h3] at h1
    rw [h4] at h2
    simp only [Option.map_eq_some_iff] at h1 h2
    obtain ⟨⟨i, a⟩, hi, rfl⟩ := h1
    obtain ⟨⟨i', a'⟩, hi', rfl⟩ := h2
    exact .inr ⟨i, _, i', _, hi, hi', hs⟩

theorem asc_ext {α : Type} {l l' : List (Str × α)} (h : KeysAsc l) (h' : KeysAsc l') (he : ∀ k, l.lookup k = l'.lookup k) : l = l' := by
  induction l generalizing l' with
  | nil =>
    cases l' with
    | nil => rfl
    | cons p l' => have := he p.1; obtain ⟨k, a⟩ := p; simp at this
  | cons p l ih =>
    cases l' with
    | nil => have := he p.1; obtain ⟨k, a⟩ := p; simp at this
    | cons q l' =>
      obtain ⟨k, a⟩ := p
      obtain ⟨k', a'⟩ := q
      have hl := List.pairwise_cons.1 h
      have hl' := List.pairwise_cons.1 h'
      have hin : ∀ {k : Str} {a : α} {l : List (Str × α)}, l.lookup k = some a → k ∈ l.map (·.1) := by
        intro k a l h
        rw [← lookup_isSome, h]; rfl
      have hk : k = k' := by
        refine Classical.byContradiction fun hne => ?_
        have h1 := he k
        have h2 := he k'
        have e1 : (k == k') = false := by simpa using hne
        have e2 : (k' == k) = false := by simpa using Ne.symm hne
        simp only [List.lookup_cons, beq_self_eq_true, e1] at h1
        simp only [List.lookup_cons, beq_self_eq_true, e2] at h2
        have m1 := hin h1.symm
        have m2 := hin h2
        obtain ⟨q, hq, hqe⟩ := List.mem_map.1 m1
        obtain ⟨r, hr, hre⟩ := List.mem_map.1 m2
        have l1 := hl'.1 _ hq
        have l2 := hl.1 _ hr
        rw [hqe] at l1
        rw [hre] at l2
        have := strLess_trans _ _ _ l1 l2
        simp [strLess_irrefl] at this
      subst hk
      have ha : a = a' := by
        have := he k
        simpa using this
      subst ha
      refine congrArg _ (ih hl.2 hl'.2 fun k2 => ?_)
      have h1 := he k2
      simp only [List.lookup_cons] at h1
      by_cases hk2 : k2 = k
      · subst hk2
        have n1 : l.lookup k2 = none := by
          cases hx : l.lookup k2 with
          | none => rfl
          | some x =>
            obtain ⟨q, hq, hqe⟩ := List.mem_map.1 (hin hx)
            have := hl.1 _ hq
            rw [hqe] at this
            simp [strLess_irrefl] at this
        have n2 : l'.lookup k2 = none := by
          cases hx : l'.lookup k2 with
          | none => rfl
          | some x =>
            obtain ⟨q, hq, hqe⟩ := List.mem_map.1 (hin hx)
            have := hl'.1 _ hq
            rw [hqe] at this
            simp [strLess_irrefl] at this
        rw [n1, n2]
      · have e : (k2 == k) = false := by simpa using hk2
        simpa [e] using h1

theorem lastValue_nodup {α : Type} (k : Str) (l : List (Str × α)) (h : (l.map (·.1)).Nodup) : lastValue k l = l.lookup k := by
  induction l with
  | nil => rfl
  | cons p l ih =>
    obtain ⟨k1, a⟩ := p
    simp only [List.map_cons, List.nodup_cons] at h
    simp only [lastValue, ih h.2, List.lookup_cons]
    by_cases hk : k1 = k
    · subst hk
      cases hx : l.lookup k1 with
      | none => simp
      | some x =>
        refine absurd ?_ h.1
        rw [← lookup_isSome, hx]
        rfl
    · have e : (k == k1) = false := by simpa using Ne.symm hk
      rw [e, if_neg hk]
      cases l.lookup k <;> rfl

theorem mapOf_perm {α : Type} {l l' : List (Str × α)} (h : (l.map (·.1)).Nodup) (hp : l.Perm l') : mapOf l = mapOf l' := by
  refine asc_ext (mapOf_asc l) (mapOf_asc l') fun k => ?_
  rw [mapOf_lookup, mapOf_lookup, lastValue_nodup k l h, lastValue_nodup k l' ((hp.map _).nodup h), lookup_perm hp h]

theorem DecodesEntries.mem {env : Env} {t : Ty} {ms : List (Str × Json)} {kvs : List (Str × Val)} (h : DecodesEntries env t ms kvs) {p : Str × Json}
    (hp : p ∈ ms) : ∃ v, Decodes env t p.2 (env.fresh t) v := by
  induction ms generalizing kvs with
  | nil => cases hp
  | cons q ms ih =>
    cases h with
    | cons _ k j _ v kvs h1 h2 =>
      rcases List.mem_cons.1 hp with rfl | hp
      · exact ⟨v, h1⟩
      · exact ih h2 hp

theorem DecodesEntries.keys {env : Env} {t : Ty} {ms : List (Str × Json)} {kvs : List (Str × Val)} (h : DecodesEntries env t ms kvs) :
    kvs.map (·.1) = ms.map fun p => cstr p.1 := by
  induction ms generalizing kvs with
  | nil => cases h; rfl
  | cons q ms ih =>
    cases h with
    | cons _ k j _ v kvs h1 h2 => simp [ih h2]

theorem DecodesEntries.perm {env : Env} {t : Ty} {ms ms' : List (Str × Json)} (hp : ms.Perm ms') : ∀ {kvs : List (Str × Val)},
    DecodesEntries env t ms kvs → ∃ kvs', kvs.Perm kvs' ∧ DecodesEntries env t ms' kvs' := by
  induction hp with
  | nil => intro kvs h; exact ⟨kvs, .refl _, h⟩
  | cons p hp ih =>
    intro kvs h
    cases h with
    | cons _ k j _ v kvs h1 h2 =>
      obtain ⟨kvs', hk, hd⟩ := ih h2
      exact ⟨_, hk.cons _, .cons t k j _ v kvs' h1 hd⟩
  | swap p q ms =>
    intro kvs h
    cases h with
    | cons _ k j _ v kvs h1 h2 =>
      cases h2 with
      | cons _ k' j' _ v' kvs h3 h4 =>
        exact ⟨_, .swap _ _ _, .cons t k' j' _ v' _ h3 (.cons t k j _ v kvs h1 h4)⟩
  | trans _ _ ih1 ih2 =>
    intro kvs h
    obtain ⟨k1, p1, d1⟩ := ih1 h
    obtain ⟨k2, p2, d2⟩ := ih2 d1
    exact ⟨k2, p1.trans p2, d2⟩

/-- What a document denotes, and whether it conforms, does not depend on the order of members. -/
theorem shuffle_meaning (env : Env) : ∀ j t j', Shuffle j j' →
    (∀ target v, Decodes env t j target v → Decodes env t j' target v) ∧ (Fails env t j → Fails env t j') := by
  intro j
  apply lexInd (P := fun j t => ∀ j', Shuffle j j' → (∀ target v, Decodes env t j target v → Decodes env t j' target v) ∧ (Fails env t j → Fails env t j'))
  intro j t ihj iht j' hs
  have items : ∀ (t : Ty) (js js' : List Json), j = .arr js → ShuffleAll js js' → ∀ vs, DecodesAll env t js vs → DecodesAll env t js' vs := by
    intro t js js' he hsh
    subst he
    have : ∀ (l l' : List Json), (∀ x ∈ l, x ∈ js) → ShuffleAll l l' → ∀ vs, DecodesAll env t l vs → DecodesAll env t l' vs := by
      intro l
      induction l with
      | nil => intro l' _ h vs hd; cases h; exact hd
      | cons x l ih =>
        intro l' hsub h vs hd
        cases h with
        | cons _ x' _ l' h1 h2 =>
          cases hd with
          | cons _ _ _ v vs d1 d2 =>
            exact .cons t x' l' v vs ((ihj x (size_item (hsub x (by simp))) t x' h1).1 _ _ d1) (ih l' (fun y hy => hsub y (by simp [hy])) h2 vs d2)
    exact this js js' (fun x h => h) hsh
  have bad : ∀ (t : Ty) (js js' : List Json), j = .arr js → ShuffleAll js js' → ∀ x ∈ js, Fails env t x → ∃ x' ∈ js', Fails env t x' := by
    intro t js js' he hsh x hx hf
    subst he
    obtain ⟨i, hi⟩ := List.getElem?_of_mem hx
    obtain ⟨x', h1, h2⟩ := hsh.get hi
    exact ⟨x', List.mem_of_getElem? h1, (ihj x (size_item hx) t x' h2).2 hf⟩
  have scalar : (∀ js, j ≠ .arr js) → (∀ ms, j ≠ .obj ms) → j' = j := by
    intro h1 h2
    cases hs with
    | same => rfl
    | arr js => exact absurd rfl (h1 js)
    | obj ms => exact absurd rfl (h2 ms)
  have arr_of : ∀ js, j = .arr js → ∃ js', j' = .arr js' ∧ ShuffleAll js js' := by
    intro js he
    cases hs with
    | same =>
      refine ⟨js, he, ?_⟩
      clear he ihj iht items bad scalar
      induction js with
      | nil => exact .nil
      | cons x js ih => exact .cons x x js js (.same x) ih
    | arr js0 js' h => cases he; exact ⟨js', rfl, h⟩
    | obj => cases he
  have arr_conv : ∀ js', j' = .arr js' → ∃ js, j = .arr js := by
    intro js' he
    cases hs with
    | same => exact ⟨js', he⟩
    | arr js0 => exact ⟨js0, rfl⟩
    | obj => cases he
  have obj_conv : ∀ ms', j' = .obj ms' → ∃ ms, j = .obj ms := by
    intro ms' he
    cases hs with
    | same => exact ⟨ms', he⟩
    | arr js0 => cases he
    | obj ms => exact ⟨ms, rfl⟩
  have leaf : ∀ p pv, LeafReads env p j pv ↔ LeafReads env p j' pv := by
    intro p pv
    cases hs with
    | same => exact Iff.rfl
    | arr js js' => constructor <;> (intro h; cases h)
    | obj ms ms' ms'' => constructor <;> (intro h; cases h)
  constructor
  · intro target v hd
    cases hd with
    | prim p _ _ pv h => exact .prim p j' target pv ((leaf p pv).1 h)
    | vec t js _ vs h =>
      obtain ⟨js', rfl, hsh⟩ := arr_of js rfl
      exact .vec t js' target vs (items t js js' rfl hsh vs h)
    | arr n t js _ vs hl h =>
      obtain ⟨js', rfl, hsh⟩ := arr_of js rfl
      exact .arr n t js' target vs (by rw [hsh.length, hl]) (items t js js' rfl hsh vs h)
    | set t js _ vs h =>
      obtain ⟨js', rfl, hsh⟩ := arr_of js rfl
      exact .set t js' target vs (items t js js' rfl hsh vs h)
    | map o t ms _ kvs h =>
      cases hs with
      | same => exact .map o t ms target kvs h
      | obj _ ms' ms'' hn hp hsf =>
        obtain ⟨kvs', hk, hd⟩ := h.perm hp
        have hsub : ∀ p ∈ ms', sizeOf p.2 < sizeOf (Json.obj ms) := fun p hp' => size_field (hp.mem_iff.2 hp')
        have hd' : DecodesEntries env t ms'' kvs' := by
          clear hp hk h hn arr_of arr_conv obj_conv items bad scalar leaf
          induction ms' generalizing ms'' kvs' with
          | nil => cases hsf; exact hd
          | cons q ms' ih =>
            cases hsf with
            | cons k x x' _ ms'' h1 h2 =>
              cases hd with
              | cons _ _ _ _ v kvs' d1 d2 =>
                exact .cons t k x' ms'' v kvs' ((ihj x (hsub (k, x) (by simp)) t x' h1).1 _ _ d1) (ih ms'' h2 kvs' d2 (fun p hp => hsub p (by simp [hp])))
        rw [mapOf_perm (by rw [h.keys]; exact hn) hk]
        exact .map o t ms'' target kvs' hd'
    | dict t js _ vs h =>
      obtain ⟨js', rfl, hsh⟩ := arr_of js rfl
      exact .dict t js' target vs (items _ js js' rfl hsh vs h)
    | tuple ts js _ vs h =>
      obtain ⟨js', rfl, hsh⟩ := arr_of js rfl
      refine .tuple ts js' target vs ?_
      have : ∀ (l l' : List Json), (∀ x ∈ l, x ∈ js) → ShuffleAll l l' → ∀ (ts : List Ty) (targets vs : List Val), DecodesEach env ts l targets vs →
          DecodesEach env ts l' targets vs := by
        intro l
        induction l with
        | nil => intro l' _ h ts targets vs hd; cases h; exact hd
        | cons x l ih =>
          intro l' hsub h ts targets vs hd
          cases h with
          | cons _ x' _ l' h1 h2 =>
            cases hd with
            | cons t ts _ _ _ v vs d1 d2 =>
              exact .cons t ts x' l' targets v vs ((ihj x (size_item (hsub x (by simp))) t x' h1).1 _ _ d1)
                (ih l' (fun y hy => hsub y (by simp [hy])) h2 ts _ vs d2)
      exact this js js' (fun x h => h) hsh ts _ vs h
    | variant ts _ _ i t v h1 h2 h3 =>
      refine .variant ts j' target i t v h1 (fun k t' hk hkt => ?_) ?_
      · exact (iht t' (size_alt (List.mem_of_getElem? hkt)) j' hs).2 (h2 k t' hk hkt)
      · exact (iht t (size_alt (List.mem_of_getElem? h1)) j' hs).1 _ v h3
    | cls c ms _ vs h =>
      cases hs with
      | same => exact .cls c ms target vs h
      | obj _ ms' ms'' hn hp hsf =>
        refine .cls c ms'' target vs ?_
        generalize env.members c = l at h
        generalize target.members = targets at h
        clear arr_of arr_conv obj_conv items bad scalar leaf
        induction l generalizing targets vs with
        | nil => cases h; exact .nil _ _
        | cons m l ih =>
          have hm := Shuffle.member hn hp hsf m.name
          cases h with
          | present _ _ _ _ i x v vs h1 h2 h3 h4 =>
            rcases hm with ⟨e, _⟩ | ⟨i1, x1, i2, x2, e1, e2, hsx⟩
            · rw [e] at h1; cases h1
            · rw [e1] at h1; cases h1
              exact .present _ m l targets i2 x2 v vs e2 h2 ((ihj x (size_field (findMember_mem e1)) m.ty x2 hsx).1 _ v h3) (ih _ _ h4)
          | some _ _ _ _ i x v vs h1 h2 h3 h4 =>
            rcases hm with ⟨e, _⟩ | ⟨i1, x1, i2, x2, e1, e2, hsx⟩
            · rw [e] at h1; cases h1
            · rw [e1] at h1; cases h1
              exact .some _ m l targets i2 x2 v vs e2 h2 ((ihj x (size_field (findMember_mem e1)) m.ty x2 hsx).1 _ v h3) (ih _ _ h4)
          | none _ _ _ _ vs h1 h2 h3 =>
            rcases hm with ⟨_, e⟩ | ⟨i1, x1, i2, x2, e1, e2, hsx⟩
            · exact .none _ m l targets vs e h2 (ih _ _ h3)
            · rw [e1] at h1; cases h1
          | keep _ _ _ _ vs h1 h2 h3 =>
            rcases hm with ⟨_, e⟩ | ⟨i1, x1, i2, x2, e1, e2, hsx⟩
            · exact .keep _ m l targets vs e h2 (ih _ _ h3)
            · rw [e1] at h1; cases h1
    | uptr t _ _ v h => exact .uptr t j' target v ((iht t (by simp) j' hs).1 _ v h)
  · intro hf
    cases hf with
    | prim p _ h => exact .prim p j' fun pv hpv => h pv ((leaf p pv).2 hpv)
    | array _ _ hw hj =>
      refine .array t j' hw fun js' he => ?_
      obtain ⟨js, rfl⟩ := arr_conv js' he
      exact hj js rfl
    | object _ _ hw hj =>
      refine .object t j' hw fun ms' he => ?_
      obtain ⟨ms, rfl⟩ := obj_conv ms' he
      exact hj ms rfl
    | vec t js x hx hf =>
      obtain ⟨js', rfl, hsh⟩ := arr_of js rfl
      obtain ⟨x', hx', hf'⟩ := bad t js js' rfl hsh x hx hf
      exact .vec t js' x' hx' hf'
    | arr n t js x hx hf =>
      obtain ⟨js', rfl, hsh⟩ := arr_of js rfl
      obtain ⟨x', hx', hf'⟩ := bad t js js' rfl hsh x hx hf
      exact .arr n t js' x' hx' hf'
    | arrLength n t js hl =>
      obtain ⟨js', rfl, hsh⟩ := arr_of js rfl
      exact .arrLength n t js' (by rw [hsh.length]; exact hl)
    | set t js x hx hf =>
      obtain ⟨js', rfl, hsh⟩ := arr_of js rfl
      obtain ⟨x', hx', hf'⟩ := bad t js js' rfl hsh x hx hf
      exact .set t js' x' hx' hf'
    | map o t ms p hpm hf =>
      cases hs with
      | same => exact .map o t ms p hpm hf
      | obj _ ms' ms'' hn hp hsf =>
        have : ∃ q ∈ ms'', Fails env t q.2 := by
          have hpm' := hp.mem_iff.1 hpm
          clear hp hn arr_of arr_conv obj_conv items bad scalar leaf
          induction ms' generalizing ms'' with
          | nil => cases hpm'
          | cons q ms' ih =>
            cases hsf with
            | cons k x x' _ ms'' h1 h2 =>
              rcases List.mem_cons.1 hpm' with rfl | hpm'
              · exact ⟨(k, x'), by simp, (ihj x (size_field hpm) t x' h1).2 hf⟩
              · obtain ⟨q, hq, hfq⟩ := ih ms'' h2 hpm'
                exact ⟨q, by simp [hq], hfq⟩
        obtain ⟨q, hq, hfq⟩ := this
        exact .map o t ms'' q hq hfq
    | dict t js x hx hf =>
      obtain ⟨js', rfl, hsh⟩ := arr_of js rfl
      obtain ⟨x', hx', hf'⟩ := bad _ js js' rfl hsh x hx hf
      exact .dict t js' x' hx' hf'
    | tuple ts js i t x h1 h2 hf =>
      obtain ⟨js', rfl, hsh⟩ := arr_of js rfl
      obtain ⟨x', h3, h4⟩ := hsh.get h2
      exact .tuple ts js' i t x' h1 h3 ((ihj x (size_item (List.mem_of_getElem? h2)) t x' h4).2 hf)
    | tupleLength ts js hl =>
      obtain ⟨js', rfl, hsh⟩ := arr_of js rfl
      exact .tupleLength ts js' (by rw [hsh.length]; exact hl)
    | variant ts _ h => exact .variant ts j' fun t ht => (iht t (size_alt ht) j' hs).2 (h t ht)
    | member c ms m i x hm hfm hf =>
      cases hs with
      | same => exact .member c ms m i x hm hfm hf
      | obj _ ms' ms'' hn hp hsf =>
        rcases Shuffle.member hn hp hsf m.name with ⟨e, _⟩ | ⟨i1, x1, i2, x2, e1, e2, hsx⟩
        · rw [e] at hfm; cases hfm
        · rw [e1] at hfm; cases hfm
          exact .member c ms'' m i2 x2 hm e2 ((ihj x (size_field (findMember_mem e1)) m.ty x2 hsx).2 hf)
    | missing c ms m hm hfm hk =>
      cases hs with
      | same => exact .missing c ms m hm hfm hk
      | obj _ ms' ms'' hn hp hsf =>
        rcases Shuffle.member hn hp hsf m.name with ⟨_, e⟩ | ⟨i1, x1, i2, x2, e1, e2, hsx⟩
        · exact .missing c ms'' m hm e hk
        · rw [e1] at hfm; cases hfm
    | uptr t _ h => exact .uptr t j' ((iht t (by simp) j' hs).2 h)

/-! ## Previous content of the target -/

/-- Every object of the document has all default members of its class. -/
def Filled (env : Env) (t : Ty) (j : Json) : Prop :=
  ∀ c fields, Part env t j (.cls c) (.obj fields) → ∀ m ∈ env.members c, m.kind = .default → findMember m.name fields ≠ none

theorem Filled.child {env : Env} {t t' : Ty} {j j' : Json} (h : Filled env t j) (hc : Child env t j t' j') : Filled env t' j' :=
  fun c fields hp => h c fields (Part.of_child hc hp)

theorem decodes_any_target (env : Env) : ∀ j t, Filled env t j → ∀ target target' v, Decodes env t j target v → Decodes env t j target' v := by
  apply lexInd
  intro j t ihj iht hF target target' v hd
  cases hd with
  | prim p _ _ pv h => exact .prim p j target' pv h
  | vec t js _ vs h => exact .vec t js target' vs h
  | arr n t js _ vs hl h => exact .arr n t js target' vs hl h
  | set t js _ vs h => exact .set t js target' vs h
  | map o t ms _ kvs h => exact .map o t ms target' kvs h
  | dict t js _ vs h => exact .dict t js target' vs h
  | tuple ts js _ vs h =>
    refine .tuple ts js target' vs ?_
    have : ∀ (l : List Json) (ts' : List Ty), (∀ (i : Nat) (t : Ty) (x : Json), ts'[i]? = some t → l[i]? = some x → sizeOf x < sizeOf (Json.arr js) ∧ Filled env t x) →
        ∀ (targets targets' vs : List Val), DecodesEach env ts' l targets vs → DecodesEach env ts' l targets' vs := by
      intro l
      induction l with
      | nil => intro ts' _ targets targets' vs hd; cases hd; exact .nil _
      | cons x l ih =>
        intro ts' hsub targets targets' vs hd
        cases hd with
        | cons t ts' _ _ _ v vs d1 d2 =>
          obtain ⟨hs, hf⟩ := hsub 0 t x rfl rfl
          exact .cons t ts' x l targets' v vs (ihj x hs t hf _ _ v d1)
            (ih ts' (fun i t' x' h1 h2 => hsub (i + 1) t' x' (by simpa using h1) (by simpa using h2)) _ _ vs d2)
    exact this js ts (fun i t x h1 h2 => ⟨size_item (List.mem_of_getElem? h2), hF.child (.tuple ts js i t x h1 h2)⟩) _ _ vs h
  | variant ts _ _ i t v h1 h2 h3 => exact .variant ts j target' i t v h1 h2 h3
  | cls c ms _ vs h =>
    refine .cls c ms target' vs ?_
    have hself := hF c ms .self
    have : ∀ (l : List Member), (∀ m ∈ l, m ∈ env.members c) → ∀ (targets targets' vs : List Val), DecodesMembers env ms l targets vs →
        DecodesMembers env ms l targets' vs := by
      intro l
      induction l with
      | nil => intro _ targets targets' vs hd; cases hd; exact .nil _ _
      | cons m l ih =>
        intro hsub targets targets' vs hd
        have ih' := ih fun m hm => hsub m (by simp [hm])
        have hm := hsub m (by simp)
        cases hd with
        | present _ _ _ _ i x v vs h1 h2 h3 h4 =>
          exact .present _ m l targets' i x v vs h1 h2 (ihj x (size_field (findMember_mem h1)) m.ty (hF.child (.cls c ms m i x hm h1)) _ _ v h3) (ih' _ _ _ h4)
        | some _ _ _ _ i x v vs h1 h2 h3 h4 => exact .some _ m l targets' i x v vs h1 h2 h3 (ih' _ _ _ h4)
        | none _ _ _ _ vs h1 h2 h3 => exact .none _ m l targets' vs h1 h2 (ih' _ _ _ h3)
        | keep _ _ _ _ vs h1 h2 h3 => exact absurd h1 (hself m hm h2)
    exact this (env.members c) (fun m h => h) _ _ vs h
  | uptr t _ _ v h => exact .uptr t j target' v h

end Verif.Core
