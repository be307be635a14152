import Verif.ReadPure
import Verif.ReadMore

/-!
# The size of what is read

`dyn` counts what a value holds beyond the variable itself: elements, entries, bytes of strings, keys and byte vectors.
`Json.extent` counts the nodes, members and bytes of strings of a document. `read_size`: a value that is read from a document
without shared pointers is no larger than the document (and what was in the variable before).
-/

namespace Verif.Core
open Verif.Numeric

/-! ## Specification -/

/-- What a leaf holds beyond itself: the bytes of strings and byte vectors. -/
def PVal.dyn : PVal → Nat
  | .str s => s.length
  | .bytes s => s.length
  | _ => 0

mutual
/-- What a value holds beyond the variable itself: the number of elements and entries in its containers, with the bytes of
its strings, keys and byte vectors. -/
def Val.dyn : Val → Nat
  | .prim p => p.dyn
  | .seq vs => itemsDyn vs
  | .tup vs => partsDyn vs
  | .set vs => itemsDyn vs
  | .map kvs => entriesDyn kvs
  | .dict kvs => entriesDyn kvs
  | .alt _ v => v.dyn
  | .obj vs => partsDyn vs
  | .absent => 0
  | .present v => v.dyn
  | .nullptr => 0
  | .uptr v => v.dyn
  | .sptr _ v => v.dyn

/-- Elements of a container: one for each, and what it holds. -/
def itemsDyn : List Val → Nat
  | [] => 0
  | v :: vs => 1 + v.dyn + itemsDyn vs

/-- Components and members. -/
def partsDyn : List Val → Nat
  | [] => 0
  | v :: vs => v.dyn + partsDyn vs

/-- Entries of a map or dictionary: one for each, its key, and what it holds. -/
def entriesDyn : List (Str × Val) → Nat
  | [] => 0
  | (k, v) :: kvs => 1 + k.length + v.dyn + entriesDyn kvs
end

mutual
/-- Nodes, members and bytes of the strings of a document. -/
def Json.extent : Json → Nat
  | .null => 1
  | .bool _ => 1
  | .num _ => 1
  | .str s => 1 + s.length
  | .arr js => 1 + extentItems js
  | .obj ms => 1 + extentFields ms

/-- Elements of an array. -/
def extentItems : List Json → Nat
  | [] => 0
  | j :: js => j.extent + extentItems js

/-- Members of an object. -/
def extentFields : List (Str × Json) → Nat
  | [] => 0
  | (k, j) :: ms => 1 + k.length + j.extent + extentFields ms
end

/-- Variables that were not assigned hold nothing: no class has members that are initialised with elements or text. -/
structure Env.Slim (env : Env) : Prop where
  ctor : ∀ t, (env.ctor t).dyn = 0
  fresh : ∀ t, (env.fresh t).dyn = 0

/-! ## Containers -/

theorem extent_pos (j : Json) : 1 ≤ j.extent := by
  cases j <;> simp only [Json.extent] <;> omega

theorem itemsDyn_append (vs ws : List Val) : itemsDyn (vs ++ ws) = itemsDyn vs + itemsDyn ws := by
  induction vs with
  | nil => simp [itemsDyn]
  | cons v vs ih => simp only [List.cons_append, itemsDyn, ih]; omega

theorem itemsDyn_insert (less : Val → Val → Bool) (x : Val) (vs : List Val) : itemsDyn (setInsert less x vs) ≤ 1 + x.dyn + itemsDyn vs := by
  induction vs with
  | nil => simp [setInsert, itemsDyn]
  | cons y ys ih =>
    simp only [setInsert]
    split
    · simp only [itemsDyn]; omega
    · split <;> simp only [itemsDyn] <;> omega

theorem itemsDyn_fold (less : Val → Val → Bool) (vs : List Val) :
    ∀ acc, itemsDyn (vs.foldl (fun s v => setInsert less v s) acc) ≤ itemsDyn vs + itemsDyn acc := by
  induction vs with
  | nil => intro acc; simp [itemsDyn]
  | cons v vs ih =>
    intro acc
    have h1 := ih (setInsert less v acc)
    have h2 := itemsDyn_insert less v acc
    simp only [List.foldl_cons, itemsDyn]
    omega

theorem entriesDyn_assign_le (k : Str) (v : Val) (kvs : List (Str × Val)) : entriesDyn (mapAssign k v kvs) ≤ 1 + k.length + v.dyn + entriesDyn kvs := by
  induction kvs with
  | nil => simp [mapAssign, entriesDyn]
  | cons p kvs ih =>
    obtain ⟨k', v'⟩ := p
    simp only [mapAssign]
    split
    · simp only [entriesDyn]; omega
    · split <;> simp only [entriesDyn] <;> omega

theorem entriesDyn_fold (kvs : List (Str × Val)) :
    ∀ acc, entriesDyn (kvs.foldl (fun s p => mapAssign p.1 p.2 s) acc) ≤ entriesDyn kvs + entriesDyn acc := by
  induction kvs with
  | nil => intro acc; simp [entriesDyn]
  | cons p kvs ih =>
    obtain ⟨k, v⟩ := p
    intro acc
    have h1 := ih (mapAssign k v acc)
    have h2 := entriesDyn_assign_le k v acc
    simp only [List.foldl_cons, entriesDyn]
    omega

theorem dictEntry_dyn (v : Val) : (dictEntry v).1.length + (dictEntry v).2.dyn ≤ v.dyn := by
  unfold dictEntry
  split
  · simp only [Val.dyn, partsDyn, PVal.dyn]; omega
  · simp

theorem entriesDyn_dict (vs : List Val) : entriesDyn (vs.map dictEntry) ≤ itemsDyn vs := by
  induction vs with
  | nil => simp [entriesDyn, itemsDyn]
  | cons v vs ih =>
    have := dictEntry_dyn v
    simp only [List.map_cons, entriesDyn, itemsDyn]
    omega

theorem cstr_length_le (s : Str) : (cstr s).length ≤ s.length := by
  unfold cstr
  exact (List.takeWhile_sublist _).length_le

theorem components_dyn (v : Val) : partsDyn v.components ≤ v.dyn := by
  cases v <;> simp [Val.components, Val.dyn, partsDyn]

theorem members_dyn (v : Val) : partsDyn v.members ≤ v.dyn := by
  cases v <;> simp [Val.members, Val.dyn, partsDyn]

/-! ## Leaves -/

theorem decodeQuad_length {a b c d : UInt8} {o : Str} (h : Base64.decodeQuad a b c d = some o) : o.length = 3 := by
  unfold Base64.decodeQuad at h
  split at h
  · cases h
  · cases h; rfl

theorem decodeLast_length {a b c d : UInt8} {o : Str} (h : Base64.decodeLast a b c d = some o) : o.length ≤ 3 := by
  unfold Base64.decodeLast at h
  split at h
  · split at h
    · cases h
    · simp only [Option.map_eq_some_iff] at h
      obtain ⟨x, hx, rfl⟩ := h
      simp [decodeQuad_length hx]
  · split at h
    · simp only [Option.map_eq_some_iff] at h
      obtain ⟨x, hx, rfl⟩ := h
      simp [decodeQuad_length hx]
    · exact Nat.le_of_eq (decodeQuad_length h)

theorem decodeLoopOut_length (s : Str) : (Base64.decodeLoopOut s).length ≤ s.length := by
  fun_induction Base64.decodeLoopOut s with
  | case1 a b c d =>
    cases h : Base64.decodeLast a b c d with
    | none => simp
    | some o => have := decodeLast_length h; simp; omega
  | case2 a b c d rest _ _ => simp; omega
  | case3 a b c d rest _ o ho ih => have := decodeQuad_length ho; simp; omega
  | case4 => simp

theorem decodeLoop_length (s : Str) : ∀ o, Base64.decodeLoop s = some o → o.length ≤ s.length := by
  fun_induction Base64.decodeLoop s with
  | case1 a b c d => intro o h; have := decodeLast_length h; simp; omega
  | case2 a b c d rest _ _ => intro o h; cases h
  | case3 a b c d rest _ o ho ih =>
    intro o' h
    simp only [Option.map_eq_some_iff] at h
    obtain ⟨x, hx, rfl⟩ := h
    have h1 := decodeQuad_length ho
    have h2 := ih x hx
    simp; omega
  | case4 => intro o h; cases h

theorem decodeOut_length (s : Str) : (Base64.decodeOut s).length ≤ s.length := by
  unfold Base64.decodeOut
  split
  · simp
  · split
    · simp
    · exact decodeLoopOut_length s

theorem decode_length {s o : Str} (h : Base64.decode s = some o) : o.length ≤ s.length := by
  unfold Base64.decode at h
  split at h
  · cases h; simp
  · split at h
    · cases h
    · exact decodeLoop_length s o h

theorem spoil_dyn (p : Prim) (j : Json) (target : Val) : (spoil p j target).dyn + 1 ≤ j.extent + target.dyn := by
  have h1 := extent_pos j
  unfold spoil
  split
  · rename_i s
    have := decodeOut_length s
    simp only [Val.dyn, PVal.dyn, Json.extent]
    omega
  · omega

theorem desPrim_dyn (env : Env) {p : Prim} {j : Json} {pv : PVal} (h : desPrim env p j = .ok pv) : pv.dyn + 1 ≤ j.extent := by
  have hp := extent_pos j
  have ints : ∀ t, desInt t j = .ok pv → pv.dyn + 1 ≤ j.extent := by
    intro t h
    unfold desInt at h
    split at h
    · split at h
      · cases h; simpa [PVal.dyn] using hp
      · cases h
      · cases h
    · cases h
  cases p with
  | null => cases j <;> simp [desPrim] at h; subst h; simp [PVal.dyn, Json.extent]
  | bool => cases j <;> simp [desPrim] at h; subst h; simp [PVal.dyn, Json.extent]
  | int t => exact ints t h
  | flt t => cases j <;> simp [desPrim] at h; subst h; simp [PVal.dyn, Json.extent]
  | str => cases j <;> simp [desPrim] at h; subst h; simp only [PVal.dyn, Json.extent]; omega
  | bytes =>
    cases j with
    | str s =>
      rw [desPrim_bytes] at h
      split at h
      · rename_i bs hb
        cases h
        have := decode_length hb
        simp only [PVal.dyn, Json.extent]
        omega
      · cases h
    | _ => simp [desPrim] at h
  | time =>
    cases j with
    | str s =>
      rw [desPrim_time] at h
      split at h
      · cases h; simpa [PVal.dyn] using hp
      · cases h
      · cases h
    | _ => simp [desPrim] at h
  | date =>
    cases j with
    | str s =>
      rw [desPrim_date] at h
      split at h
      · cases h; simpa [PVal.dyn] using hp
      · cases h
      · cases h
    | _ => simp [desPrim] at h
  | enumInt t => exact ints t h
  | enumStr table =>
    cases j with
    | str s =>
      rw [desPrim_enumStr] at h
      split at h
      · cases h; simpa [PVal.dyn] using hp
      · cases h
    | _ => simp [desPrim] at h

/-! ## Values read from documents -/

/-- Whatever is read from `j` as `t`, also in vain, is within the size of `j` and of the variable. -/
def Fits (env : Env) (j : Json) (t : Ty) : Prop :=
  ∀ exc target segs ok v, pd env j exc t target segs = .done ok v → v.dyn + 1 ≤ j.extent + target.dyn

theorem PRes.of_map {α β : Type} {f : α → β} {r : PRes α} {ok : Bool} {b : β} (h : r.map f = .done ok b) : ∃ a, r = .done ok a ∧ b = f a := by
  cases r with
  | ub => cases h
  | threw s e => cases h
  | done o a => cases h; exact ⟨a, rfl, rfl⟩

theorem PRes.reject_done {α : Type} {exc : Bool} {segs : List Seg} {e : Err} {target : α} {ok : Bool} {a : α}
    (h : PRes.reject exc segs e target = .done ok a) : a = target := by
  cases exc <;> cases h
  rfl

theorem pSame_fits (env : Env) (hs : env.Slim) (t : Ty) (exc : Bool) (js : List Json) (h : ∀ j ∈ js, Fits env j t) :
    ∀ k segs ok vs, pSame env t exc js k segs = .done ok vs → itemsDyn vs ≤ extentItems js := by
  induction js with
  | nil => intro k segs ok vs hr; cases hr; simp [itemsDyn]
  | cons j js ih =>
    intro k segs ok vs hr
    have ih' := ih fun j hj => h j (by simp [hj])
    simp only [pSame] at hr
    cases hp : pd env j exc t (env.fresh t) (.index k :: segs) with
    | ub => rw [hp] at hr; cases hr
    | threw s e => rw [hp] at hr; cases hr
    | done o v =>
      rw [hp] at hr
      cases o with
      | false => cases hr; simp [itemsDyn]
      | true =>
        obtain ⟨a, ha, rfl⟩ := PRes.of_map hr
        have h1 := h j (by simp) _ _ _ _ _ hp
        have h2 := ih' _ _ _ _ ha
        rw [hs.fresh] at h1
        simp only [itemsDyn, extentItems]
        omega

theorem partsDyn_headD (vs : List Val) (d : Val) (hd : d.dyn = 0) : (vs.headD d).dyn + partsDyn vs.tail = partsDyn vs := by
  cases vs with
  | nil => simp [partsDyn, hd]
  | cons v vs => simp [partsDyn]

theorem pTuple_fits (env : Env) (hs : env.Slim) (exc : Bool) (js : List Json) :
    ∀ ts, (∀ j ∈ js, ∀ t ∈ ts, Fits env j t) → ∀ targets k segs ok vs, pTuple env exc js ts targets k segs = .done ok vs →
      partsDyn vs ≤ extentItems js + partsDyn targets := by
  induction js with
  | nil =>
    intro ts h targets k segs ok vs hr
    have : vs = [] := by cases ts <;> (cases hr; rfl)
    subst this
    simp [partsDyn]
  | cons j js ih =>
    intro ts h targets k segs ok vs hr
    cases ts with
    | nil => cases hr; simp [partsDyn]
    | cons t ts =>
      have ht := partsDyn_headD targets (env.fresh t) (hs.fresh t)
      simp only [pTuple] at hr
      cases hp : pd env j exc t (targets.headD (env.fresh t)) (.index k :: segs) with
      | ub => rw [hp] at hr; cases hr
      | threw s e => rw [hp] at hr; cases hr
      | done o v =>
        rw [hp] at hr
        have h1 := h j (by simp) t (by simp) _ _ _ _ _ hp
        cases o with
        | false =>
          cases hr
          simp only [partsDyn, extentItems]
          omega
        | true =>
          obtain ⟨a, ha, rfl⟩ := PRes.of_map hr
          have h2 := ih ts (fun j hj t ht => h j (by simp [hj]) t (by simp [ht])) _ _ _ _ _ ha
          simp only [partsDyn, extentItems]
          omega

theorem pEntries_fits (env : Env) (hs : env.Slim) (t : Ty) (exc : Bool) (ms : List (Str × Json)) (h : ∀ p ∈ ms, Fits env p.2 t) :
    ∀ segs ok kvs, pEntries env t exc ms segs = .done ok kvs → entriesDyn kvs ≤ extentFields ms := by
  induction ms with
  | nil => intro segs ok vs hr; cases hr; simp [entriesDyn]
  | cons p ms ih =>
    obtain ⟨key, j⟩ := p
    intro segs ok kvs hr
    have ih' := ih fun j hj => h j (by simp [hj])
    simp only [pEntries] at hr
    cases hp : pd env j exc t (env.fresh t) (Seg.name (cstr key) :: segs) with
    | ub => rw [hp] at hr; cases hr
    | threw s e => rw [hp] at hr; cases hr
    | done o v =>
      rw [hp] at hr
      cases o with
      | false => cases hr; simp [entriesDyn]
      | true =>
        obtain ⟨a, ha, rfl⟩ := PRes.of_map hr
        have h1 : v.dyn + 1 ≤ j.extent + (env.fresh t).dyn := h (key, j) (by simp) _ _ _ _ _ hp
        have h2 := ih' _ _ _ ha
        have h3 := cstr_length_le key
        rw [hs.fresh] at h1
        simp only [entriesDyn, extentFields]
        omega

/-- What the members find in an object. -/
def found (fs : List (Str × Json)) : List Member → Nat
  | [] => 0
  | m :: ms => ((fs.lookup m.name).elim 0 Json.extent) + found fs ms

theorem pMembers_fits (env : Env) (hs : env.Slim) (exc : Bool) (fs : List (Str × Json)) (segs : List Seg) (ms : List Member)
    (h : ∀ p ∈ fs, ∀ m ∈ ms, Fits env p.2 m.ty) :
    ∀ targets res ok vs, pMembers env exc fs segs ms targets res = .done ok vs → partsDyn vs ≤ found fs ms + partsDyn targets := by
  induction ms with
  | nil => intro targets res ok vs hr; cases hr; simp [partsDyn]
  | cons m ms ih =>
    intro targets res ok vs hr
    have ih' := ih fun p hp m' hm => h p hp m' (by simp [hm])
    have ht := partsDyn_headD targets (env.fresh m.ty) (hs.fresh m.ty)
    simp only [pMembers] at hr
    have hv := findMember_value m.name fs
    cases hf : findMember m.name fs with
    | none =>
      rw [hf] at hr hv
      simp only at hr
      cases hk : m.kind with
      | required =>
        rw [hk] at hr
        simp only at hr
        split at hr
        · cases hr
        · obtain ⟨a, ha, rfl⟩ := PRes.of_map hr
          have h2 := ih' _ _ _ _ ha
          simp only [partsDyn, found]
          omega
      | optional =>
        rw [hk] at hr
        obtain ⟨a, ha, rfl⟩ := PRes.of_map hr
        have h2 := ih' _ _ _ _ ha
        simp only [partsDyn, found, Val.dyn]
        omega
      | default =>
        rw [hk] at hr
        obtain ⟨a, ha, rfl⟩ := PRes.of_map hr
        have h2 := ih' _ _ _ _ ha
        simp only [partsDyn, found]
        omega
    | some q =>
      obtain ⟨i, j⟩ := q
      rw [hf] at hr hv
      simp only [Option.map_some] at hr hv
      generalize htg : (if m.kind = .optional then env.fresh m.ty else targets.headD (env.fresh m.ty)) = tg at hr
      have htd : tg.dyn + partsDyn targets.tail ≤ partsDyn targets := by
        rw [← htg]
        split
        · rw [hs.fresh]; omega
        · omega
      cases hp : pd env j exc m.ty tg (Seg.name (cstr m.name) :: segs) with
      | ub => rw [hp] at hr; cases hr
      | threw s e => rw [hp] at hr; cases hr
      | done o v =>
        rw [hp] at hr
        obtain ⟨a, ha, rfl⟩ := PRes.of_map hr
        have h1 : v.dyn + 1 ≤ j.extent + tg.dyn := h (m.name, j) (findMember_mem hf) m (by simp) _ _ _ _ _ hp
        have h2 := ih' _ _ _ _ ha
        have h3 : ((if m.kind = .optional then Val.present v else v) : Val).dyn = v.dyn := by split <;> simp [Val.dyn]
        simp only [partsDyn, found, ← hv, Option.elim]
        rw [h3]
        omega

theorem lookup_filter_ne {α : Type} {n k : Str} (h : n ≠ k) (fs : List (Str × α)) : (fs.filter fun p => p.1 != k).lookup n = fs.lookup n := by
  induction fs with
  | nil => rfl
  | cons p fs ih =>
    obtain ⟨a, b⟩ := p
    by_cases ha : a = k
    · subst ha
      have : (n == a) = false := by simpa using h
      simp [List.lookup, ih, this]
    · simp only [List.filter_cons, bne_iff_ne, ne_eq, ha, not_false_eq_true, if_true, List.lookup, ih]

theorem found_le (ms : List Member) (hn : (ms.map (·.name)).Nodup) : ∀ fs, found fs ms ≤ extentFields fs := by
  induction ms with
  | nil => intro fs; simp [found]
  | cons m ms ih =>
    intro fs
    simp only [List.map_cons, List.nodup_cons] at hn
    have h1 := ih hn.2 (fs.filter fun p => p.1 != m.name)
    have h2 : found (fs.filter fun p => p.1 != m.name) ms = found fs ms := by
      have hm := hn.1
      clear ih h1 hn
      induction ms with
      | nil => rfl
      | cons m' ms ih' =>
        simp only [List.map_cons, List.mem_cons, not_or] at hm
        simp only [found, lookup_filter_ne (fun h => hm.1 h.symm), ih' hm.2]
    have h3 : (fs.lookup m.name).elim 0 Json.extent + extentFields (fs.filter fun p => p.1 != m.name) ≤ extentFields fs := by
      clear h1 h2 ih
      have hle : ∀ fs : List (Str × Json), extentFields (fs.filter fun p => p.1 != m.name) ≤ extentFields fs := by
        intro fs
        induction fs with
        | nil => simp
        | cons p fs ih =>
          obtain ⟨a, b⟩ := p
          simp only [List.filter_cons]
          split <;> simp only [extentFields] <;> omega
      induction fs with
      | nil => simp [extentFields]
      | cons p fs ih =>
        obtain ⟨a, b⟩ := p
        by_cases ha : a = m.name
        · subst ha
          have := hle fs
          simp only [List.filter_cons, List.lookup, beq_self_eq_true, Option.elim, extentFields, bne_self_eq_false, Bool.false_eq_true, if_false]
          omega
        · have hb : (m.name == a) = false := by simpa using fun h => ha h.symm
          simp only [List.filter_cons, bne_iff_ne, ne_eq, ha, not_false_eq_true, if_true, List.lookup, hb, extentFields]
          omega
    simp only [found]
    omega

theorem pAll_fits (env : Env) (hs : env.Slim) (j : Json) (ts : List Ty) (h : ∀ t ∈ ts, Fits env j t) :
    ∀ i segs v, pAll env j ts i segs = .done true v → v.dyn + 1 ≤ j.extent := by
  induction ts with
  | nil => intro i segs v hr; cases hr
  | cons t ts ih =>
    intro i segs v hr
    simp only [pAll] at hr
    cases hp : pd env j false t (env.fresh t) segs with
    | ub => rw [hp] at hr; cases hr
    | threw s e => rw [hp] at hr; cases hr
    | done o w =>
      rw [hp] at hr
      cases o with
      | false => exact ih (fun t ht => h t (by simp [ht])) _ _ _ hr
      | true =>
        cases hr
        have h1 := h t (by simp) _ _ _ _ _ hp
        rw [hs.fresh] at h1
        simpa [Val.dyn] using h1

theorem read_size (env : Env) (hu : env.Unshared) (hn : env.DistinctNames) (hs : env.Slim) : ∀ j t, t.unshared = true → Fits env j t := by
  apply lexInd
  intro j t ihj iht ht exc target segs ok v hr
  have hp := extent_pos j
  have kept : v = target → v.dyn + 1 ≤ j.extent + target.dyn := by rintro rfl; omega
  cases t with
  | prim p =>
    rw [pd_prim] at hr
    split at hr
    · cases hr
    · rw [PRes.reject_done hr]
      exact spoil_dyn p j target
    · rename_i pv hpv
      cases hr
      have := desPrim_dyn env hpv
      simp only [Val.dyn]
      omega
  | vec t =>
    cases j with
    | arr js =>
      rw [pd_vec env hu exc target segs js t ht] at hr
      obtain ⟨vs, hvs, rfl⟩ := PRes.of_map hr
      have := pSame_fits env hs t exc js (fun j hj => ihj j (size_item hj) t ht) _ _ _ _ hvs
      simp only [Val.dyn, Json.extent]
      omega
    | _ => rw [pd_not_arr env exc target segs _ _ (by simp) (by simp)] at hr; exact kept (PRes.reject_done hr)
  | arr n t =>
    cases j with
    | arr js =>
      rw [pd_arr env hu exc target segs js n t ht] at hr
      split at hr
      · cases hq : pSame env t exc js 0 segs with
        | ub => rw [hq] at hr; cases hr
        | threw s e => rw [hq] at hr; cases hr
        | done o vs =>
          rw [hq] at hr
          cases o with
          | false => cases hr; omega
          | true =>
            cases hr
            have := pSame_fits env hs t exc js (fun j hj => ihj j (size_item hj) t ht) _ _ _ _ hq
            have h2 : ∀ vs, partsDyn vs ≤ itemsDyn vs := by
              intro vs
              induction vs with
              | nil => simp [partsDyn]
              | cons v vs ih => simp only [partsDyn, itemsDyn]; omega
            have := h2 vs
            simp only [Val.dyn, Json.extent]
            omega
      · exact kept (PRes.reject_done hr)
    | _ => rw [pd_not_arr env exc target segs _ _ (by simp) (by simp)] at hr; exact kept (PRes.reject_done hr)
  | set t =>
    cases j with
    | arr js =>
      rw [pd_set env hu exc target segs js t ht] at hr
      obtain ⟨vs, hvs, rfl⟩ := PRes.of_map hr
      have := pSame_fits env hs t exc js (fun j hj => ihj j (size_item hj) t ht) _ _ _ _ hvs
      have h2 : itemsDyn (setOf env.less vs) ≤ _ := itemsDyn_fold env.less vs []
      simp only [Val.dyn, Json.extent, itemsDyn] at *
      omega
    | _ => rw [pd_not_arr env exc target segs _ _ (by simp) (by simp)] at hr; exact kept (PRes.reject_done hr)
  | map o t =>
    cases j with
    | obj ms =>
      rw [pd_map env hu exc target segs ms o t ht] at hr
      obtain ⟨vs, hvs, rfl⟩ := PRes.of_map hr
      have := pEntries_fits env hs t exc ms (fun p hp => ihj p.2 (size_field hp) t ht) _ _ _ hvs
      have h2 : entriesDyn (mapOf vs) ≤ _ := entriesDyn_fold vs []
      simp only [Val.dyn, Json.extent, entriesDyn] at *
      omega
    | _ => rw [pd_not_obj env exc target segs _ _ (by simp) (by simp)] at hr; exact kept (PRes.reject_done hr)
  | dict t =>
    cases j with
    | arr js =>
      rw [pd_dict env hu exc target segs js t ht] at hr
      obtain ⟨vs, hvs, rfl⟩ := PRes.of_map hr
      have := pSame_fits env hs _ exc js (fun j hj => ihj j (size_item hj) _ (by simpa [Ty.unshared, Ty.unshareds] using ht)) _ _ _ _ hvs
      have h2 := entriesDyn_dict vs
      simp only [Val.dyn, Json.extent]
      omega
    | _ => rw [pd_not_arr env exc target segs _ _ (by simp) (by simp)] at hr; exact kept (PRes.reject_done hr)
  | tuple ts =>
    cases j with
    | arr js =>
      rw [pd_tuple env hu exc target segs js ts ht] at hr
      split at hr
      · obtain ⟨vs, hvs, rfl⟩ := PRes.of_map hr
        have := pTuple_fits env hs exc js ts (fun j hj t ht' => ihj j (size_item hj) t ((Ty.unshareds_iff ts).1 ht t ht')) _ _ _ _ _ hvs
        have h2 := components_dyn target
        simp only [Val.dyn, Json.extent]
        omega
      · exact kept (PRes.reject_done hr)
    | _ => rw [pd_not_arr env exc target segs _ _ (by simp) (by simp)] at hr; exact kept (PRes.reject_done hr)
  | variant ts =>
    rw [pd_variant env hu exc target segs j ts ht] at hr
    cases hq : pAll env j ts 0 segs with
    | ub => rw [hq] at hr; cases hr
    | threw s e => rw [hq] at hr; cases hr
    | done o w =>
      rw [hq] at hr
      cases o with
      | true =>
        cases hr
        have := pAll_fits env hs j ts (fun t ht' => iht t (size_alt ht') ((Ty.unshareds_iff ts).1 ht t ht')) _ _ _ hq
        omega
      | false => exact kept (PRes.reject_done hr)
  | cls c =>
    cases j with
    | obj ms =>
      rw [pd_cls env hu exc target segs ms c] at hr
      obtain ⟨vs, hvs, rfl⟩ := PRes.of_map hr
      have := pMembers_fits env hs exc ms segs (env.members c) (fun p hp m hm => ihj p.2 (size_field hp) m.ty (hu c m hm)) _ _ _ _ hvs
      have h2 := members_dyn target
      have h3 := found_le (env.members c) (hn c) ms
      simp only [Val.dyn, Json.extent]
      omega
    | _ => rw [pd_not_obj env exc target segs _ _ (by simp) (by simp)] at hr; exact kept (PRes.reject_done hr)
  | uptr t =>
    rw [pd_uptr env hu exc target segs j t ht] at hr
    cases hq : pd env j exc t (env.ctor t) segs with
    | ub => rw [hq] at hr; cases hr
    | threw s e => rw [hq] at hr; cases hr
    | done o w =>
      rw [hq] at hr
      have h1 := iht t (by simp) ht _ _ _ _ _ hq
      rw [hs.ctor] at h1
      cases o with
      | true => cases hr; simp only [Val.dyn]; omega
      | false => cases hr; omega
  | sptr t => simp [Ty.unshared] at ht

end Verif.Core
