import Verif.Size
import Verif.UnshareOwn
import Verif.Cost
import Verif.RoundTrip

/-!
# The size of what is read, with shared pointers

`read_size_shared`: documents without references, all types. `hoards`: documents with references. An object that is referred to
several times is counted once: `Val.bulk` is what a value holds without the objects of its shared pointers, `Val.objects` lists
these objects.
-/

namespace Verif.Core
open Verif.Numeric

/-! ## Documents without references -/

/-- Whatever is read from `j` as `t`, also in vain, is within the size of `j` and of the variable. -/
def FitsIn (env : Env) (root j : Json) (t : Ty) : Prop :=
  ∀ exc target loc segs st ok v st', deser env root j exc t target loc segs st = .done ok v st' → v.dyn + 1 ≤ j.extent + target.dyn

theorem DRes.of_map {α β : Type} {f : α → β} {r : DRes α} {ok : Bool} {b : β} {st : DState} (h : r.map f = .done ok b st) :
    ∃ a, r = .done ok a st ∧ b = f a := by
  cases r with
  | ub => cases h
  | threw s e => cases h
  | done o a st => cases h; exact ⟨a, rfl, rfl⟩

theorem DRes.reject_done {α : Type} {exc : Bool} {segs : List Seg} {e : Err} {target : α} {ok : Bool} {a : α} {st st' : DState}
    (h : DRes.reject exc segs e target st = .done ok a st') : a = target ∧ st' = st ∧ ok = false := by
  cases exc <;> cases h
  exact ⟨rfl, rfl, rfl⟩

theorem partsDyn_le_itemsDyn (vs : List Val) : partsDyn vs ≤ itemsDyn vs := by
  induction vs with
  | nil => simp [partsDyn]
  | cons v vs ih => simp only [partsDyn, itemsDyn]; omega

section
variable (env : Env) (hs : env.Slim) (root : Json)
include hs

theorem runSame_fits (t : Ty) (exc : Bool) (js : List Json) (h : ∀ j ∈ js, FitsIn env root j t) :
    ∀ k loc segs st ok vs st', runSame env t exc (js.map (deser env root)) k loc segs st = .done ok vs st' → itemsDyn vs ≤ extentItems js := by
  induction js with
  | nil => intro k loc segs st ok vs st' hr; cases hr; simp [itemsDyn]
  | cons j js ih =>
    intro k loc segs st ok vs st' hr
    have ih' := ih fun j hj => h j (by simp [hj])
    simp only [List.map_cons, runSame] at hr
    cases hp : deser env root j exc t (env.fresh t) (k :: loc) (.index k :: segs) st with
    | ub => rw [hp] at hr; cases hr
    | threw s e => rw [hp] at hr; cases hr
    | done o v st1 =>
      rw [hp] at hr
      cases o with
      | false => cases hr; simp [itemsDyn]
      | true =>
        obtain ⟨a, ha, rfl⟩ := DRes.of_map hr
        have h1 := h j (by simp) _ _ _ _ _ _ _ _ hp
        have h2 := ih' _ _ _ _ _ _ _ ha
        rw [hs.fresh] at h1
        simp only [itemsDyn, extentItems]
        omega

theorem runTuple_fits (exc : Bool) (js : List Json) :
    ∀ ts, (∀ j ∈ js, ∀ t ∈ ts, FitsIn env root j t) → ∀ targets k loc segs st ok vs st',
      runTuple env exc (js.map (deser env root)) ts targets k loc segs st = .done ok vs st' → partsDyn vs ≤ extentItems js + partsDyn targets := by
  induction js with
  | nil =>
    intro ts h targets k loc segs st ok vs st' hr
    have : vs = [] := by cases ts <;> (cases hr; rfl)
    subst this
    simp [partsDyn]
  | cons j js ih =>
    intro ts h targets k loc segs st ok vs st' hr
    cases ts with
    | nil => cases hr; simp [partsDyn]
    | cons t ts =>
      have ht := partsDyn_headD targets (env.fresh t) (hs.fresh t)
      simp only [List.map_cons, runTuple] at hr
      cases hp : deser env root j exc t (targets.headD (env.fresh t)) (k :: loc) (.index k :: segs) st with
      | ub => rw [hp] at hr; cases hr
      | threw s e => rw [hp] at hr; cases hr
      | done o v st1 =>
        rw [hp] at hr
        have h1 := h j (by simp) t (by simp) _ _ _ _ _ _ _ _ hp
        cases o with
        | false =>
          cases hr
          simp only [partsDyn, extentItems]
          omega
        | true =>
          obtain ⟨a, ha, rfl⟩ := DRes.of_map hr
          have h2 := ih ts (fun j hj t ht => h j (by simp [hj]) t (by simp [ht])) _ _ _ _ _ _ _ _ ha
          simp only [partsDyn, extentItems]
          omega

theorem runEntries_fits (t : Ty) (exc : Bool) (ms : List (Str × Json)) (h : ∀ p ∈ ms, FitsIn env root p.2 t) :
    ∀ k loc segs st ok kvs st', runEntries env t exc (ms.map fun p => (p.1, deser env root p.2)) k loc segs st = .done ok kvs st' →
      entriesDyn kvs ≤ extentFields ms := by
  induction ms with
  | nil => intro k loc segs st ok vs st' hr; cases hr; simp [entriesDyn]
  | cons p ms ih =>
    obtain ⟨key, j⟩ := p
    intro k loc segs st ok kvs st' hr
    have ih' := ih fun j hj => h j (by simp [hj])
    simp only [List.map_cons, runEntries] at hr
    cases hp : deser env root j exc t (env.fresh t) (k :: loc) (Seg.name (cstr key) :: segs) st with
    | ub => rw [hp] at hr; cases hr
    | threw s e => rw [hp] at hr; cases hr
    | done o v st1 =>
      rw [hp] at hr
      cases o with
      | false => cases hr; simp [entriesDyn]
      | true =>
        obtain ⟨a, ha, rfl⟩ := DRes.of_map hr
        have h1 : v.dyn + 1 ≤ j.extent + (env.fresh t).dyn := h (key, j) (by simp) _ _ _ _ _ _ _ _ hp
        have h2 := ih' _ _ _ _ _ _ _ ha
        have h3 := cstr_length_le key
        rw [hs.fresh] at h1
        simp only [entriesDyn, extentFields]
        omega

theorem runMembers_fits (exc : Bool) (fs : List (Str × Json)) (loc : Loc) (segs : List Seg) (ms : List Member)
    (h : ∀ p ∈ fs, ∀ m ∈ ms, FitsIn env root p.2 m.ty) :
    ∀ targets res st ok vs st', runMembers env exc (fs.map fun p => (p.1, deser env root p.2)) loc segs ms targets res st = .done ok vs st' →
      partsDyn vs ≤ found fs ms + partsDyn targets := by
  induction ms with
  | nil => intro targets res st ok vs st' hr; cases hr; simp [partsDyn]
  | cons m ms ih =>
    intro targets res st ok vs st' hr
    have ih' := ih fun p hp m' hm => h p hp m' (by simp [hm])
    have ht := partsDyn_headD targets (env.fresh m.ty) (hs.fresh m.ty)
    simp only [runMembers, findMember_map] at hr
    have hv := findMember_value m.name fs
    cases hf : findMember m.name fs with
    | none =>
      rw [hf] at hr hv
      simp only [Option.map_none] at hr
      cases hk : m.kind with
      | required =>
        rw [hk] at hr
        simp only at hr
        split at hr
        · cases hr
        · obtain ⟨a, ha, rfl⟩ := DRes.of_map hr
          have h2 := ih' _ _ _ _ _ _ ha
          simp only [partsDyn, found]
          omega
      | optional =>
        rw [hk] at hr
        obtain ⟨a, ha, rfl⟩ := DRes.of_map hr
        have h2 := ih' _ _ _ _ _ _ ha
        simp only [partsDyn, found, Val.dyn]
        omega
      | default =>
        rw [hk] at hr
        obtain ⟨a, ha, rfl⟩ := DRes.of_map hr
        have h2 := ih' _ _ _ _ _ _ ha
        simp only [partsDyn, found]
        omega
    | some q =>
      obtain ⟨i, j⟩ := q
      rw [hf] at hr hv
      simp only [Option.map_some] at hr hv
      generalize htg : (if m.kind = .optional then env.fresh m.ty else targets.headD (env.fresh m.ty)) = tg at hr
      have htd : tg.dyn + partsDyn targets.tail ≤ partsDyn targets := by
        rw [← htg]
        split
        · rw [hs.fresh]; omega
        · omega
      cases hp : deser env root j exc m.ty tg (i :: loc) (Seg.name (cstr m.name) :: segs) st with
      | ub => rw [hp] at hr; cases hr
      | threw s e => rw [hp] at hr; cases hr
      | done o v st1 =>
        rw [hp] at hr
        obtain ⟨a, ha, rfl⟩ := DRes.of_map hr
        have h1 : v.dyn + 1 ≤ j.extent + tg.dyn := h (m.name, j) (findMember_mem hf) m (by simp) _ _ _ _ _ _ _ _ hp
        have h2 := ih' _ _ _ _ _ _ ha
        have h3 : ((if m.kind = .optional then Val.present v else v) : Val).dyn = v.dyn := by split <;> simp [Val.dyn]
        simp only [partsDyn, found, ← hv, Option.elim]
        rw [h3]
        omega

theorem tryAll_fits (j : Json) (ts : List Ty) (h : ∀ t ∈ ts, FitsIn env root j t) :
    ∀ i loc segs st v st', tryAll env root j ts i loc segs st = .done true v st' → v.dyn + 1 ≤ j.extent := by
  induction ts with
  | nil => intro i loc segs st v st' hr; cases hr
  | cons t ts ih =>
    intro i loc segs st v st' hr
    simp only [tryAll] at hr
    cases hp : deser env root j false t (env.fresh t) loc segs st with
    | ub => rw [hp] at hr; cases hr
    | threw s e => rw [hp] at hr; cases hr
    | done o w st1 =>
      rw [hp] at hr
      cases o with
      | false => exact ih (fun t ht => h t (by simp [ht])) _ _ _ _ _ _ hr
      | true =>
        cases hr
        have h1 := h t (by simp) _ _ _ _ _ _ _ _ hp
        rw [hs.fresh] at h1
        simpa [Val.dyn] using h1

theorem read_size_shared (hn : env.DistinctNames) : ∀ j t, j.noRef → FitsIn env root j t := by
  refine lexInd fun j t ihj iht hnr exc target loc segs st ok v st' hr => ?_
  have hp := extent_pos j
  have kept : v = target → v.dyn + 1 ≤ j.extent + target.dyn := by rintro rfl; omega
  have hitem : ∀ js, j = .arr js → ∀ t', ∀ j' ∈ js, FitsIn env root j' t' := by
    rintro js rfl t' j' hj'
    exact ihj j' (size_item hj') t' (noRef_item hnr hj')
  have hfield : ∀ ms, j = .obj ms → ∀ t', ∀ p ∈ ms, FitsIn env root p.2 t' := by
    rintro ms rfl t' p hp
    exact ihj p.2 (size_field hp) t' (noRef_field hnr hp)
  cases t with
  | prim p =>
    rw [deser_prim] at hr
    split at hr
    · cases hr
    · rw [(DRes.reject_done hr).1]
      exact spoil_dyn p j target
    · rename_i pv hpv
      cases hr
      have := desPrim_dyn env hpv
      simp only [Val.dyn]
      omega
  | vec t =>
    rw [deser_vec] at hr
    cases j with
    | arr js =>
      obtain ⟨vs, hvs, rfl⟩ := DRes.of_map hr
      have := runSame_fits env hs root t exc js (hitem js rfl t) _ _ _ _ _ _ _ hvs
      simp only [Val.dyn, Json.extent]
      omega
    | _ => exact kept (DRes.reject_done hr).1
  | arr n t =>
    rw [deser_arr] at hr
    cases j with
    | arr js =>
      simp only at hr
      split at hr
      · cases hq : runSame env t exc (js.map (deser env root)) 0 loc segs st with
        | ub => rw [hq] at hr; cases hr
        | threw s e => rw [hq] at hr; cases hr
        | done o vs st1 =>
          rw [hq] at hr
          cases o with
          | false => cases hr; omega
          | true =>
            cases hr
            have := runSame_fits env hs root t exc js (hitem js rfl t) _ _ _ _ _ _ _ hq
            have := partsDyn_le_itemsDyn vs
            simp only [Val.dyn, Json.extent]
            omega
      · exact kept (DRes.reject_done hr).1
    | _ => exact kept (DRes.reject_done hr).1
  | set t =>
    rw [deser_set] at hr
    cases j with
    | arr js =>
      obtain ⟨vs, hvs, rfl⟩ := DRes.of_map hr
      have := runSame_fits env hs root t exc js (hitem js rfl t) _ _ _ _ _ _ _ hvs
      have h2 := itemsDyn_fold env.less vs []
      simp only [Val.dyn, Json.extent, itemsDyn] at *
      omega
    | _ => exact kept (DRes.reject_done hr).1
  | map o t =>
    rw [deser_map] at hr
    cases j with
    | obj ms =>
      obtain ⟨vs, hvs, rfl⟩ := DRes.of_map hr
      have := runEntries_fits env hs root t exc ms (hfield ms rfl t) _ _ _ _ _ _ _ hvs
      have h2 := entriesDyn_fold vs []
      simp only [Val.dyn, Json.extent, entriesDyn] at *
      omega
    | _ => exact kept (DRes.reject_done hr).1
  | dict t =>
    rw [deser_dict] at hr
    cases j with
    | arr js =>
      obtain ⟨vs, hvs, rfl⟩ := DRes.of_map hr
      have := runSame_fits env hs root _ exc js (hitem js rfl _) _ _ _ _ _ _ _ hvs
      have h2 := entriesDyn_dict vs
      simp only [Val.dyn, Json.extent]
      omega
    | _ => exact kept (DRes.reject_done hr).1
  | tuple ts =>
    rw [deser_tuple] at hr
    cases j with
    | arr js =>
      simp only at hr
      split at hr
      · obtain ⟨vs, hvs, rfl⟩ := DRes.of_map hr
        have := runTuple_fits env hs root exc js ts (fun j hj t _ => hitem js rfl t j hj) _ _ _ _ _ _ _ _ hvs
        have h2 := components_dyn target
        simp only [Val.dyn, Json.extent]
        omega
      · exact kept (DRes.reject_done hr).1
    | _ => exact kept (DRes.reject_done hr).1
  | variant ts =>
    rw [deser_variant] at hr
    cases hq : tryAll env root j ts 0 loc segs st with
    | ub => rw [hq] at hr; cases hr
    | threw s e => rw [hq] at hr; cases hr
    | done o w st1 =>
      rw [hq] at hr
      cases o with
      | true =>
        cases hr
        have := tryAll_fits env hs root j ts (fun t ht' => iht t (size_alt ht') hnr) _ _ _ _ _ _ hq
        omega
      | false => exact kept (DRes.reject_done hr).1
  | cls c =>
    rw [deser_cls] at hr
    cases j with
    | obj ms =>
      obtain ⟨vs, hvs, rfl⟩ := DRes.of_map hr
      have := runMembers_fits env hs root exc ms loc segs (env.members c) (fun p hp m hm => hfield ms rfl m.ty p hp) _ _ _ _ _ _ hvs
      have h2 := members_dyn target
      have h3 := found_le (env.members c) (hn c) ms
      simp only [Val.dyn, Json.extent]
      omega
    | _ => exact kept (DRes.reject_done hr).1
  | uptr t =>
    rw [deser_uptr] at hr
    cases hq : deser env root j exc t (env.ctor t) loc segs st with
    | ub => rw [hq] at hr; cases hr
    | threw s e => rw [hq] at hr; cases hr
    | done o w st1 =>
      rw [hq] at hr
      have h1 := iht t (by simp) hnr _ _ _ _ _ _ _ _ hq
      rw [hs.ctor] at h1
      cases o with
      | true => cases hr; simp only [Val.dyn]; omega
      | false => cases hr; omega
  | sptr t =>
    rw [deser_sptr, noRef_refMember hnr] at hr
    simp only at hr
    cases hq : deser env root j exc t (env.ctor t) loc segs { st with next := st.next + 1 } with
    | ub => rw [hq] at hr; cases hr
    | threw s e => rw [hq] at hr; cases hr
    | done o w st1 =>
      rw [hq] at hr
      have h1 := iht t (by simp) hnr _ _ _ _ _ _ _ _ hq
      rw [hs.ctor] at h1
      cases o with
      | true => cases hr; simp only [Val.dyn]; omega
      | false => cases hr; simp only [Val.dyn]; omega
end

/-! ## Documents with references: specification -/

mutual
/-- What a value holds beyond the variable itself (`Val.dyn`), without the objects of its shared pointers. -/
def Val.bulk : Val → Nat
  | .prim p => p.dyn
  | .seq vs => itemsBulk vs
  | .tup vs => partsBulk vs
  | .set vs => itemsBulk vs
  | .map kvs => entriesBulk kvs
  | .dict kvs => entriesBulk kvs
  | .alt _ v => v.bulk
  | .obj vs => partsBulk vs
  | .absent => 0
  | .present v => v.bulk
  | .nullptr => 0
  | .uptr v => v.bulk
  | .sptr _ _ => 0

/-- Elements of a container. -/
def itemsBulk : List Val → Nat
  | [] => 0
  | v :: vs => 1 + v.bulk + itemsBulk vs

/-- Components and members. -/
def partsBulk : List Val → Nat
  | [] => 0
  | v :: vs => v.bulk + partsBulk vs

/-- Entries of a map or dictionary. -/
def entriesBulk : List (Str × Val) → Nat
  | [] => 0
  | (k, v) :: kvs => 1 + k.length + v.bulk + entriesBulk kvs
end

mutual
/-- The objects of the shared pointers of a value, with their addresses, also those inside other objects. -/
def Val.objects : Val → List (Nat × Val)
  | .prim _ => []
  | .seq vs => objectsAll vs
  | .tup vs => objectsAll vs
  | .set vs => objectsAll vs
  | .map kvs => objectsVals kvs
  | .dict kvs => objectsVals kvs
  | .alt _ v => v.objects
  | .obj vs => objectsAll vs
  | .absent => []
  | .present v => v.objects
  | .nullptr => []
  | .uptr v => v.objects
  | .sptr a v => (a, v) :: v.objects

/-- `Val.objects` for lists. -/
def objectsAll : List Val → List (Nat × Val)
  | [] => []
  | v :: vs => v.objects ++ objectsAll vs

/-- `Val.objects` for the values of a map. -/
def objectsVals : List (Str × Val) → List (Nat × Val)
  | [] => []
  | (_, v) :: kvs => v.objects ++ objectsVals kvs
end

/-- What objects hold together. -/
def holdings : List (Nat × Val) → Nat
  | [] => 0
  | (_, v) :: os => v.bulk + holdings os

mutual
/-- The extent of a document in which everything inside an array or object counts `D` times. -/
def Json.weighed (D : Nat) : Json → Nat
  | .null => 1
  | .bool _ => 1
  | .num _ => 1
  | .str s => 1 + s.length
  | .arr js => 1 + D * weighedItems D js
  | .obj ms => 1 + D * weighedFields D ms

/-- Elements of an array. -/
def weighedItems (D : Nat) : List Json → Nat
  | [] => 0
  | j :: js => j.weighed D + weighedItems D js

/-- Members of an object. -/
def weighedFields (D : Nat) : List (Str × Json) → Nat
  | [] => 0
  | (k, j) :: ms => 1 + k.length + j.weighed D + weighedFields D ms
end

/-- At most `D` alternatives of each variant (and of variants directly inside of it) are arrays, and at most `D` are objects. -/
def Choices (env : Env) (D : Nat) (t : Ty) : Prop := ∀ u, Within env t u → ∀ array, opens array u ≤ D

theorem Choices.inner {env : Env} {D : Nat} {t t' : Ty} (h : Choices env D t) (hi : Inner env t t') : Choices env D t' :=
  fun u hu => h u (.of_inner hi hu)

/-! ## The weight of a document -/

mutual
theorem weighed_one : (j : Json) → j.weighed 1 = j.extent
  | .null => rfl
  | .bool _ => rfl
  | .num _ => rfl
  | .str _ => rfl
  | .arr js => by simp only [Json.weighed, Json.extent, weighedItems_one js, Nat.one_mul]
  | .obj ms => by simp only [Json.weighed, Json.extent, weighedFields_one ms, Nat.one_mul]

theorem weighedItems_one : (js : List Json) → weighedItems 1 js = extentItems js
  | [] => rfl
  | j :: js => by simp only [weighedItems, extentItems, weighed_one j, weighedItems_one js]

theorem weighedFields_one : (ms : List (Str × Json)) → weighedFields 1 ms = extentFields ms
  | [] => rfl
  | (k, j) :: ms => by simp only [weighedFields, extentFields, weighed_one j, weighedFields_one ms]
end

theorem weighed_pos (D : Nat) (j : Json) : 1 ≤ j.weighed D := by
  cases j <;> simp only [Json.weighed] <;> omega

/-- The text of a leaf. -/
def topOf : Json → Nat
  | .str s => s.length
  | _ => 0

/-- What is inside an array or object. -/
def insideOf (D : Nat) : Json → Nat
  | .arr js => weighedItems D js
  | .obj ms => weighedFields D ms
  | _ => 0

theorem weighed_eq (D : Nat) (j : Json) : j.weighed D = 1 + topOf j + D * insideOf D j := by
  cases j <;> simp [Json.weighed, topOf, insideOf]

/-! ## Containers -/

theorem itemsBulk_insert (less : Val → Val → Bool) (x : Val) (vs : List Val) : itemsBulk (setInsert less x vs) ≤ 1 + x.bulk + itemsBulk vs := by
  induction vs with
  | nil => simp [setInsert, itemsBulk]
  | cons y ys ih =>
    simp only [setInsert]
    split
    · simp only [itemsBulk]; omega
    · split <;> simp only [itemsBulk] <;> omega

theorem itemsBulk_fold (less : Val → Val → Bool) (vs : List Val) :
    ∀ acc, itemsBulk (vs.foldl (fun s v => setInsert less v s) acc) ≤ itemsBulk vs + itemsBulk acc := by
  induction vs with
  | nil => intro acc; simp [itemsBulk]
  | cons v vs ih =>
    intro acc
    have h1 := ih (setInsert less v acc)
    have h2 := itemsBulk_insert less v acc
    simp only [List.foldl_cons, itemsBulk]
    omega

theorem entriesBulk_assign_le (k : Str) (v : Val) (kvs : List (Str × Val)) : entriesBulk (mapAssign k v kvs) ≤ 1 + k.length + v.bulk + entriesBulk kvs := by
  induction kvs with
  | nil => simp [mapAssign, entriesBulk]
  | cons p kvs ih =>
    obtain ⟨k', v'⟩ := p
    simp only [mapAssign]
    split
    · simp only [entriesBulk]; omega
    · split <;> simp only [entriesBulk] <;> omega

theorem entriesBulk_fold (kvs : List (Str × Val)) :
    ∀ acc, entriesBulk (kvs.foldl (fun s p => mapAssign p.1 p.2 s) acc) ≤ entriesBulk kvs + entriesBulk acc := by
  induction kvs with
  | nil => intro acc; simp [entriesBulk]
  | cons p kvs ih =>
    obtain ⟨k, v⟩ := p
    intro acc
    have h1 := ih (mapAssign k v acc)
    have h2 := entriesBulk_assign_le k v acc
    simp only [List.foldl_cons, entriesBulk]
    omega

theorem dictEntry_bulk (v : Val) : (dictEntry v).1.length + (dictEntry v).2.bulk ≤ v.bulk := by
  unfold dictEntry
  split
  · simp only [Val.bulk, partsBulk, PVal.dyn]; omega
  · simp

theorem entriesBulk_dict (vs : List Val) : entriesBulk (vs.map dictEntry) ≤ itemsBulk vs := by
  induction vs with
  | nil => simp [entriesBulk, itemsBulk]
  | cons v vs ih =>
    have := dictEntry_bulk v
    simp only [List.map_cons, entriesBulk, itemsBulk]
    omega

theorem partsBulk_le_itemsBulk (vs : List Val) : partsBulk vs ≤ itemsBulk vs := by
  induction vs with
  | nil => simp [partsBulk]
  | cons v vs ih => simp only [partsBulk, itemsBulk]; omega

theorem components_bulk (v : Val) : partsBulk v.components ≤ v.bulk := by
  cases v <;> simp [Val.components, Val.bulk, partsBulk]

theorem members_bulk (v : Val) : partsBulk v.members ≤ v.bulk := by
  cases v <;> simp [Val.members, Val.bulk, partsBulk]

theorem partsBulk_headD (vs : List Val) (d : Val) (hd : d.bulk = 0) : (vs.headD d).bulk + partsBulk vs.tail = partsBulk vs := by
  cases vs with
  | nil => simp [partsBulk, hd]
  | cons v vs => simp [partsBulk]

theorem objectsAll_insert (less : Val → Val → Bool) (x : Val) (vs : List Val) :
    ∀ o ∈ objectsAll (setInsert less x vs), o ∈ x.objects ∨ o ∈ objectsAll vs := by
  induction vs with
  | nil => intro o h; simpa [setInsert, objectsAll] using h
  | cons y ys ih =>
    intro o h
    simp only [setInsert] at h
    split at h
    · simp only [objectsAll, List.mem_append] at h ⊢
      rcases h with h | h
      · exact .inr (.inl h)
      · exact (ih o h).imp id .inr
    · split at h
      · simpa only [objectsAll, List.mem_append] using h
      · exact .inr h

theorem objectsAll_fold (less : Val → Val → Bool) (vs : List Val) :
    ∀ acc, ∀ o ∈ objectsAll (vs.foldl (fun s v => setInsert less v s) acc), o ∈ objectsAll vs ∨ o ∈ objectsAll acc := by
  induction vs with
  | nil => intro acc o h; exact .inr h
  | cons v vs ih =>
    intro acc o h
    simp only [objectsAll, List.mem_append]
    rcases ih _ o h with h | h
    · exact .inl (.inr h)
    · exact (objectsAll_insert less v acc o h).imp .inl id

theorem objectsVals_assign (k : Str) (v : Val) (kvs : List (Str × Val)) :
    ∀ o ∈ objectsVals (mapAssign k v kvs), o ∈ v.objects ∨ o ∈ objectsVals kvs := by
  induction kvs with
  | nil => intro o h; simpa [mapAssign, objectsVals] using h
  | cons p kvs ih =>
    obtain ⟨k', v'⟩ := p
    intro o h
    simp only [mapAssign] at h
    split at h
    · simp only [objectsVals, List.mem_append] at h ⊢; exact h.imp id .inr
    · split at h
      · simp only [objectsVals, List.mem_append] at h ⊢
        rcases h with h | h
        · exact .inr (.inl h)
        · exact (ih o h).imp id .inr
      · simpa only [objectsVals, List.mem_append] using h

theorem objectsVals_fold (kvs : List (Str × Val)) :
    ∀ acc, ∀ o ∈ objectsVals (kvs.foldl (fun s p => mapAssign p.1 p.2 s) acc), o ∈ objectsVals kvs ∨ o ∈ objectsVals acc := by
  induction kvs with
  | nil => intro acc o h; exact .inr h
  | cons p kvs ih =>
    obtain ⟨k, v⟩ := p
    intro acc o h
    simp only [objectsVals, List.mem_append]
    rcases ih _ o h with h | h
    · exact .inl (.inr h)
    · exact (objectsVals_assign k v acc o h).imp .inl id

theorem objectsVals_dict (vs : List Val) : ∀ o ∈ objectsVals (vs.map dictEntry), o ∈ objectsAll vs := by
  induction vs with
  | nil => intro o h; exact h
  | cons v vs ih =>
    intro o h
    simp only [List.map_cons, objectsVals, objectsAll, List.mem_append] at h ⊢
    refine h.imp (fun h => ?_) (ih o)
    unfold dictEntry at h
    split at h
    · simpa [Val.objects, objectsAll] using h
    · exact h

theorem objects_components (v : Val) : ∀ o ∈ objectsAll v.components, o ∈ v.objects := by
  cases v <;> simp [Val.components, Val.objects, objectsAll]

theorem objects_members (v : Val) : ∀ o ∈ objectsAll v.members, o ∈ v.objects := by
  cases v <;> simp [Val.members, Val.objects, objectsAll]

theorem holdings_append (L M : List (Nat × Val)) : holdings (L ++ M) = holdings L + holdings M := by
  induction L with
  | nil => simp [holdings]
  | cons o L ih => obtain ⟨a, v⟩ := o; simp only [List.cons_append, holdings, ih]; omega

/-! ## Documents with references: the DOM reader -/

/-- Variables that were not assigned hold nothing and no objects. -/
structure Env.Vacant (env : Env) : Prop where
  ctor : ∀ t, (env.ctor t).bulk = 0 ∧ (env.ctor t).objects = []
  fresh : ∀ t, (env.fresh t).bulk = 0 ∧ (env.fresh t).objects = []

/-- The objects in the table of references. -/
def DState.objects (st : DState) : List (Nat × Val) := st.refs.flatMap fun e => (e.2.1, e.2.2.2) :: e.2.2.2.objects

/-- The objects `L` explain how the table was filled. -/
def Entered (L : List (Nat × Val)) (st st' : DState) : Prop := ∀ o ∈ st'.objects, o ∈ L ∨ o ∈ st.objects

/-- The objects `L` explain where the objects of a value come from: they are new, were in the variable or in the table. -/
def Sourced (L : List (Nat × Val)) (st : DState) (before os : List (Nat × Val)) : Prop := ∀ o ∈ os, o ∈ L ∨ o ∈ before ∨ o ∈ st.objects

theorem Entered.refl (st : DState) : Entered [] st st := fun _ h => .inr h

theorem Entered.trans {L M : List (Nat × Val)} {st st1 st2 : DState} (h : Entered L st st1) (h' : Entered M st1 st2) : Entered (L ++ M) st st2 := by
  intro o ho
  rcases h' o ho with h1 | h1
  · exact .inl (List.mem_append_right _ h1)
  · exact (h o h1).imp (List.mem_append_left _) id

theorem Sourced.later {L M : List (Nat × Val)} {st st1 : DState} {before os : List (Nat × Val)} (h : Entered L st st1) (h' : Sourced M st1 before os) :
    Sourced (L ++ M) st before os := by
  intro o ho
  rcases h' o ho with h1 | h1 | h1
  · exact .inl (List.mem_append_right _ h1)
  · exact .inr (.inl h1)
  · exact (h o h1).imp (List.mem_append_left _) .inr

theorem Sourced.more {L M : List (Nat × Val)} {st : DState} {before os : List (Nat × Val)} (h : Sourced L st before os) : Sourced (L ++ M) st before os :=
  fun o ho => (h o ho).imp (List.mem_append_left _) id

theorem Sourced.weaken {L : List (Nat × Val)} {st : DState} {before before' os os' : List (Nat × Val)} (h : Sourced L st before os)
    (hb : ∀ o ∈ before, o ∈ before') (ho : ∀ o ∈ os', o ∈ os) : Sourced L st before' os' :=
  fun o h1 => (h o (ho o h1)).imp id (Or.imp (hb o) id)

theorem Sourced.append {L : List (Nat × Val)} {st : DState} {before os os' : List (Nat × Val)} (h : Sourced L st before os) (h' : Sourced L st before os') :
    Sourced L st before (os ++ os') := by
  intro o ho
  rcases List.mem_append.1 ho with ho | ho
  · exact h o ho
  · exact h' o ho

theorem Sourced.same {L : List (Nat × Val)} {st : DState} {os : List (Nat × Val)} : Sourced L st os os := fun _ h => .inr (.inl h)

theorem Sourced.nil {L : List (Nat × Val)} {st : DState} {before : List (Nat × Val)} : Sourced L st before [] := fun _ h => by cases h

/-- What was read from a node, within a bound. -/
def Hoarded (bound : Nat) (target : Val) (st : DState) (v : Val) (st' : DState) : Prop :=
  ∃ L, v.bulk + holdings L ≤ bound + target.bulk ∧ holdings L ≤ bound ∧ Sourced L st target.objects v.objects ∧ Entered L st st'

/-- What is to be shown for one node: the value with the new objects is within the size of the document; if the node is refused, then what it leaves
in the table is within the size of its elements or members. -/
def Hoards (env : Env) (root : Json) (D : Nat) (j : Json) (t : Ty) : Prop :=
  ∀ exc target loc segs st ok v st', deser env root j exc t target loc segs st = .done ok v st' →
    Hoarded (topOf j + opens (isArray j) t * insideOf D j) target st v st' ∧
    (ok = false → ∃ L, holdings L ≤ opens (isArray j) t * insideOf D j ∧ Entered L st st')

/-- The same with the full weight of the node. -/
def HoardsAll (env : Env) (root : Json) (D : Nat) (j : Json) (t : Ty) : Prop :=
  ∀ exc target loc segs st ok v st', deser env root j exc t target loc segs st = .done ok v st' →
    ∃ L, v.bulk + holdings L + 1 ≤ j.weighed D + target.bulk ∧ holdings L + 1 ≤ j.weighed D ∧ Sourced L st target.objects v.objects ∧ Entered L st st'

theorem Hoards.all {env : Env} {root : Json} {D : Nat} {j : Json} {t : Ty} (h : Hoards env root D j t) (hc : Choices env D t) : HoardsAll env root D j t := by
  intro exc target loc segs st ok v st' hr
  obtain ⟨⟨L, h1, h2, h3, h4⟩, -⟩ := h exc target loc segs st ok v st' hr
  have h5 := Nat.mul_le_mul_right (insideOf D j) (hc t .self (isArray j))
  rw [weighed_eq]
  exact ⟨L, by omega, by omega, h3, h4⟩

theorem Hoarded.target (bound : Nat) (target : Val) (st : DState) : Hoarded bound target st target st :=
  ⟨[], by simp [holdings], by simp [holdings], .same, .refl st⟩

section
variable (env : Env) (hs : env.Vacant) (root : Json) (D : Nat)
include hs

theorem runSame_keeps (t : Ty) (exc : Bool) (js : List Json) (h : ∀ j ∈ js, HoardsAll env root D j t) :
    ∀ k loc segs st ok vs st', runSame env t exc (js.map (deser env root)) k loc segs st = .done ok vs st' →
      ∃ L, itemsBulk vs + holdings L ≤ weighedItems D js ∧ Sourced L st [] (objectsAll vs) ∧ Entered L st st' := by
  induction js with
  | nil => intro k loc segs st ok vs st' hr; cases hr; exact ⟨[], by simp [itemsBulk, holdings], .nil, .refl _⟩
  | cons j js ih =>
    intro k loc segs st ok vs st' hr
    have ih' := ih fun j hj => h j (by simp [hj])
    simp only [List.map_cons, runSame] at hr
    cases hp : deser env root j exc t (env.fresh t) (k :: loc) (.index k :: segs) st with
    | ub => rw [hp] at hr; cases hr
    | threw s e => rw [hp] at hr; cases hr
    | done o v st1 =>
      rw [hp] at hr
      obtain ⟨L, h1, h2, h3, h4⟩ := h j (by simp) _ _ _ _ _ _ _ _ hp
      rw [(hs.fresh t).1] at h1
      rw [(hs.fresh t).2] at h3
      cases o with
      | false =>
        cases hr
        exact ⟨L, by simp only [itemsBulk, weighedItems]; omega, .nil, h4⟩
      | true =>
        obtain ⟨a, ha, rfl⟩ := DRes.of_map hr
        obtain ⟨M, h5, h6, h7⟩ := ih' _ _ _ _ _ _ _ ha
        refine ⟨L ++ M, ?_, .append h3.more (.later h4 h6), h4.trans h7⟩
        rw [holdings_append]
        simp only [itemsBulk, weighedItems]
        omega

theorem runEntries_keeps (t : Ty) (exc : Bool) (ms : List (Str × Json)) (h : ∀ p ∈ ms, HoardsAll env root D p.2 t) :
    ∀ k loc segs st ok kvs st', runEntries env t exc (ms.map fun p => (p.1, deser env root p.2)) k loc segs st = .done ok kvs st' →
      ∃ L, entriesBulk kvs + holdings L ≤ weighedFields D ms ∧ Sourced L st [] (objectsVals kvs) ∧ Entered L st st' := by
  induction ms with
  | nil => intro k loc segs st ok vs st' hr; cases hr; exact ⟨[], by simp [entriesBulk, holdings], .nil, .refl _⟩
  | cons p ms ih =>
    obtain ⟨key, j⟩ := p
    intro k loc segs st ok kvs st' hr
    have ih' := ih fun j hj => h j (by simp [hj])
    simp only [List.map_cons, runEntries] at hr
    cases hp : deser env root j exc t (env.fresh t) (k :: loc) (Seg.name (cstr key) :: segs) st with
    | ub => rw [hp] at hr; cases hr
    | threw s e => rw [hp] at hr; cases hr
    | done o v st1 =>
      rw [hp] at hr
      have hj : HoardsAll env root D j t := h (key, j) (by simp)
      obtain ⟨L, h1, h2, h3, h4⟩ := hj _ _ _ _ _ _ _ _ hp
      rw [(hs.fresh t).1] at h1
      rw [(hs.fresh t).2] at h3
      cases o with
      | false =>
        cases hr
        exact ⟨L, by simp only [entriesBulk, weighedFields]; omega, .nil, h4⟩
      | true =>
        obtain ⟨a, ha, rfl⟩ := DRes.of_map hr
        obtain ⟨M, h5, h6, h7⟩ := ih' _ _ _ _ _ _ _ ha
        refine ⟨L ++ M, ?_, .append h3.more (.later h4 h6), h4.trans h7⟩
        have h8 := cstr_length_le key
        rw [holdings_append]
        simp only [entriesBulk, weighedFields]
        omega

theorem objectsAll_headD (vs : List Val) (t : Ty) : (∀ o ∈ (vs.headD (env.fresh t)).objects, o ∈ objectsAll vs) ∧ ∀ o ∈ objectsAll vs.tail, o ∈ objectsAll vs := by
  cases vs with
  | nil => simp [(hs.fresh t).2, objectsAll]
  | cons v vs => exact ⟨fun o h => List.mem_append_left _ h, fun o h => List.mem_append_right _ h⟩

theorem runTuple_keeps (exc : Bool) (js : List Json) :
    ∀ ts, (∀ j ∈ js, ∀ t ∈ ts, HoardsAll env root D j t) → ∀ targets k loc segs st ok vs st',
      runTuple env exc (js.map (deser env root)) ts targets k loc segs st = .done ok vs st' →
      ∃ L, partsBulk vs + holdings L ≤ weighedItems D js + partsBulk targets ∧ holdings L ≤ weighedItems D js ∧
        Sourced L st (objectsAll targets) (objectsAll vs) ∧ Entered L st st' := by
  induction js with
  | nil =>
    intro ts h targets k loc segs st ok vs st' hr
    have : vs = [] ∧ st' = st := by cases ts <;> (cases hr; exact ⟨rfl, rfl⟩)
    obtain ⟨rfl, rfl⟩ := this
    exact ⟨[], by simp [partsBulk, holdings], by simp [holdings], .nil, .refl _⟩
  | cons j js ih =>
    intro ts h targets k loc segs st ok vs st' hr
    cases ts with
    | nil => cases hr; exact ⟨[], by simp [partsBulk, holdings], by simp [holdings], .nil, .refl _⟩
    | cons t ts =>
      have ht := partsBulk_headD targets (env.fresh t) (hs.fresh t).1
      obtain ⟨ho1, ho2⟩ := objectsAll_headD env hs targets t
      simp only [List.map_cons, runTuple] at hr
      cases hp : deser env root j exc t (targets.headD (env.fresh t)) (k :: loc) (.index k :: segs) st with
      | ub => rw [hp] at hr; cases hr
      | threw s e => rw [hp] at hr; cases hr
      | done o v st1 =>
        rw [hp] at hr
        obtain ⟨L, h1, h2, h3, h4⟩ := h j (by simp) t (by simp) _ _ _ _ _ _ _ _ hp
        cases o with
        | false =>
          cases hr
          refine ⟨L, by simp only [partsBulk, weighedItems]; omega, by simp only [weighedItems]; omega, ?_, h4⟩
          exact .append (h3.weaken ho1 fun _ h => h) (Sourced.same.weaken ho2 fun _ h => h)
        | true =>
          obtain ⟨a, ha, rfl⟩ := DRes.of_map hr
          obtain ⟨M, h5, h6, h7, h8⟩ := ih ts (fun j hj t ht => h j (by simp [hj]) t (by simp [ht])) _ _ _ _ _ _ _ _ ha
          refine ⟨L ++ M, ?_, ?_, .append (h3.weaken ho1 fun _ h => h).more (.later h4 (h7.weaken ho2 fun _ h => h)), h4.trans h8⟩
          · rw [holdings_append]
            simp only [partsBulk, weighedItems]
            omega
          · rw [holdings_append]
            simp only [weighedItems]
            omega

/-- What the members find in an object. -/
def foundIn (D : Nat) (fs : List (Str × Json)) : List Member → Nat
  | [] => 0
  | m :: ms => ((fs.lookup m.name).elim 0 (Json.weighed D)) + foundIn D fs ms

omit hs in
theorem foundIn_le (ms : List Member) (hn : (ms.map (·.name)).Nodup) : ∀ fs, foundIn D fs ms ≤ weighedFields D fs := by
  induction ms with
  | nil => intro fs; simp [foundIn]
  | cons m ms ih =>
    intro fs
    simp only [List.map_cons, List.nodup_cons] at hn
    have h1 := ih hn.2 (fs.filter fun p => p.1 != m.name)
    have h2 : foundIn D (fs.filter fun p => p.1 != m.name) ms = foundIn D fs ms := by
      have hm := hn.1
      clear ih h1 hn
      induction ms with
      | nil => rfl
      | cons m' ms ih' =>
        simp only [List.map_cons, List.mem_cons, not_or] at hm
        simp only [foundIn, lookup_filter_ne (fun h => hm.1 h.symm), ih' hm.2]
    have h3 : (fs.lookup m.name).elim 0 (Json.weighed D) + weighedFields D (fs.filter fun p => p.1 != m.name) ≤ weighedFields D fs := by
      clear h1 h2 ih
      have hle : ∀ fs : List (Str × Json), weighedFields D (fs.filter fun p => p.1 != m.name) ≤ weighedFields D fs := by
        intro fs
        induction fs with
        | nil => simp
        | cons p fs ih =>
          obtain ⟨a, b⟩ := p
          simp only [List.filter_cons]
          split <;> simp only [weighedFields] <;> omega
      induction fs with
      | nil => simp [weighedFields]
      | cons p fs ih =>
        obtain ⟨a, b⟩ := p
        by_cases ha : a = m.name
        · subst ha
          have := hle fs
          simp only [List.filter_cons, List.lookup, beq_self_eq_true, Option.elim, weighedFields, bne_self_eq_false, Bool.false_eq_true, if_false]
          omega
        · have hb : (m.name == a) = false := by simpa using fun h => ha h.symm
          simp only [List.filter_cons, bne_iff_ne, ne_eq, ha, not_false_eq_true, if_true, List.lookup, hb, weighedFields]
          omega
    simp only [foundIn]
    omega

theorem runMembers_keeps (exc : Bool) (fs : List (Str × Json)) (loc : Loc) (segs : List Seg) (ms : List Member)
    (h : ∀ p ∈ fs, ∀ m ∈ ms, HoardsAll env root D p.2 m.ty) :
    ∀ targets res st ok vs st', runMembers env exc (fs.map fun p => (p.1, deser env root p.2)) loc segs ms targets res st = .done ok vs st' →
      ∃ L, partsBulk vs + holdings L ≤ foundIn D fs ms + partsBulk targets ∧ holdings L ≤ foundIn D fs ms ∧
        Sourced L st (objectsAll targets) (objectsAll vs) ∧ Entered L st st' := by
  induction ms with
  | nil => intro targets res st ok vs st' hr; cases hr; exact ⟨[], by simp [partsBulk, holdings], by simp [holdings], .nil, .refl _⟩
  | cons m ms ih =>
    intro targets res st ok vs st' hr
    have ih' := ih fun p hp m' hm => h p hp m' (by simp [hm])
    have ht := partsBulk_headD targets (env.fresh m.ty) (hs.fresh m.ty).1
    obtain ⟨ho1, ho2⟩ := objectsAll_headD env hs targets m.ty
    simp only [runMembers, findMember_map] at hr
    have hv := findMember_value m.name fs
    cases hf : findMember m.name fs with
    | none =>
      rw [hf] at hr hv
      have he : ((List.lookup m.name fs).elim 0 (Json.weighed D)) = 0 := by rw [← hv]; rfl
      simp only [Option.map_none] at hr
      cases hk : m.kind with
      | required =>
        rw [hk] at hr
        simp only at hr
        split at hr
        · cases hr
        · obtain ⟨a, ha, rfl⟩ := DRes.of_map hr
          obtain ⟨L, h1, h2, h3, h4⟩ := ih' _ _ _ _ _ _ ha
          refine ⟨L, ?_, ?_, .append (Sourced.same.weaken ho1 fun _ h => h) (h3.weaken ho2 fun _ h => h), h4⟩ <;> simp only [partsBulk, foundIn] <;> omega
      | optional =>
        rw [hk] at hr
        obtain ⟨a, ha, rfl⟩ := DRes.of_map hr
        obtain ⟨L, h1, h2, h3, h4⟩ := ih' _ _ _ _ _ _ ha
        refine ⟨L, ?_, ?_, .append .nil (h3.weaken ho2 fun _ h => h), h4⟩ <;> simp only [partsBulk, foundIn, Val.bulk] <;> omega
      | default =>
        rw [hk] at hr
        obtain ⟨a, ha, rfl⟩ := DRes.of_map hr
        obtain ⟨L, h1, h2, h3, h4⟩ := ih' _ _ _ _ _ _ ha
        refine ⟨L, ?_, ?_, .append (Sourced.same.weaken ho1 fun _ h => h) (h3.weaken ho2 fun _ h => h), h4⟩ <;> simp only [partsBulk, foundIn] <;> omega
    | some q =>
      obtain ⟨i, j⟩ := q
      rw [hf] at hr hv
      simp only [Option.map_some] at hr hv
      generalize htg : (if m.kind = .optional then env.fresh m.ty else targets.headD (env.fresh m.ty)) = tg at hr
      have htd : tg.bulk + partsBulk targets.tail ≤ partsBulk targets := by
        rw [← htg]
        split
        · rw [(hs.fresh m.ty).1]; omega
        · omega
      have hto : ∀ o ∈ tg.objects, o ∈ objectsAll targets := by
        rw [← htg]
        split
        · rw [(hs.fresh m.ty).2]; intro o h; cases h
        · exact ho1
      cases hp : deser env root j exc m.ty tg (i :: loc) (Seg.name (cstr m.name) :: segs) st with
      | ub => rw [hp] at hr; cases hr
      | threw s e => rw [hp] at hr; cases hr
      | done o v st1 =>
        rw [hp] at hr
        obtain ⟨a, ha, rfl⟩ := DRes.of_map hr
        have hj : HoardsAll env root D j m.ty := h (m.name, j) (findMember_mem hf) m (by simp)
        obtain ⟨L, h1, h2, h3, h4⟩ := hj _ _ _ _ _ _ _ _ hp
        obtain ⟨M, h5, h6, h7, h8⟩ := ih' _ _ _ _ _ _ ha
        have e1 : ((if m.kind = .optional then Val.present v else v) : Val).bulk = v.bulk := by split <;> simp [Val.bulk]
        have e2 : ((if m.kind = .optional then Val.present v else v) : Val).objects = v.objects := by split <;> simp [Val.objects]
        refine ⟨L ++ M, ?_, ?_, .append ?_ (.later h4 (h7.weaken ho2 fun _ h => h)), h4.trans h8⟩
        · simp only [partsBulk, foundIn, ← hv, Option.elim, holdings_append]
          rw [e1]
          omega
        · simp only [foundIn, ← hv, Option.elim, holdings_append]
          omega
        · rw [e2]
          exact (h3.weaken hto fun _ h => h).more

theorem tryAll_keeps (j : Json) (ts : List Ty) (h : ∀ t ∈ ts, Hoards env root D j t) :
    ∀ i loc segs st ok v st', tryAll env root j ts i loc segs st = .done ok v st' →
      (ok = true → ∃ L, v.bulk + holdings L ≤ topOf j + opensAll (isArray j) ts * insideOf D j ∧ Sourced L st [] v.objects ∧ Entered L st st') ∧
      (ok = false → ∃ L, holdings L ≤ opensAll (isArray j) ts * insideOf D j ∧ Entered L st st') := by
  induction ts with
  | nil => intro i loc segs st ok v st' hr; cases hr; exact ⟨(fun h => nomatch h), fun _ => ⟨[], by simp [holdings], .refl _⟩⟩
  | cons t ts ih =>
    intro i loc segs st ok v st' hr
    simp only [tryAll] at hr
    simp only [opensAll, Nat.add_mul]
    cases hp : deser env root j false t (env.fresh t) loc segs st with
    | ub => rw [hp] at hr; cases hr
    | threw s e => rw [hp] at hr; cases hr
    | done o w st1 =>
      rw [hp] at hr
      obtain ⟨⟨L, h1, h2, h3, h4⟩, h5⟩ := h t (by simp) _ _ _ _ _ _ _ _ hp
      cases o with
      | false =>
        obtain ⟨M, h6, h7⟩ := h5 rfl
        obtain ⟨h8, h9⟩ := ih (fun t ht => h t (by simp [ht])) _ _ _ _ _ _ _ hr
        refine ⟨fun ho => ?_, fun ho => ?_⟩
        · obtain ⟨N, h10, h11, h12⟩ := h8 ho
          exact ⟨M ++ N, by rw [holdings_append]; omega, .later h7 h11, h7.trans h12⟩
        · obtain ⟨N, h10, h11⟩ := h9 ho
          exact ⟨M ++ N, by rw [holdings_append]; omega, h7.trans h11⟩
      | true =>
        cases hr
        rw [(hs.fresh t).1] at h1
        rw [(hs.fresh t).2] at h3
        exact ⟨fun _ => ⟨L, by simp only [Val.bulk]; omega, h3, h4⟩, fun h => by cases h⟩

omit hs in
theorem desPrim_top {p : Prim} {j : Json} {pv : PVal} (h : desPrim env p j = .ok pv) : pv.dyn ≤ topOf j := by
  have h1 := desPrim_dyn env h
  cases j with
  | arr js => cases p <;> simp [desPrim, desInt] at h
  | obj ms => cases p <;> simp [desPrim, desInt] at h
  | _ => simp only [Json.extent, topOf] at *; omega

omit hs in
theorem spoil_top (p : Prim) (j : Json) (target : Val) : (spoil p j target).bulk ≤ topOf j + target.bulk ∧ ∀ o ∈ (spoil p j target).objects, o ∈ target.objects := by
  unfold spoil
  split
  · rename_i s
    have := decodeOut_length s
    exact ⟨by simp only [Val.bulk, PVal.dyn, topOf]; omega, fun o h => by cases h⟩
  · exact ⟨by omega, fun _ h => h⟩

omit hs in
theorem lookup_objects {st : DState} {loc : Loc} {a : Nat} {t : Ty} {v : Val} (h : st.refs.lookup loc = some (a, t, v)) :
    ∀ o ∈ (a, v) :: v.objects, o ∈ st.objects := by
  intro o ho
  refine List.mem_flatMap.2 ⟨(loc, a, t, v), ?_, ho⟩
  generalize st.refs = refs at h
  induction refs with
  | nil => cases h
  | cons e refs ih =>
    obtain ⟨l, b⟩ := e
    simp only [List.lookup] at h
    split at h
    · rename_i hl
      have : loc = l := by simpa using hl
      subst this
      cases h
      simp
    · exact List.mem_cons_of_mem _ (ih h)

omit hs in
theorem entered_put {L : List (Nat × Val)} {st st' : DState} (h : Entered L st st') (loc : Loc) (a : Nat) (t : Ty) (v : Val)
    (hv : ∀ o ∈ v.objects, o ∈ L ∨ o ∈ st.objects) : Entered ((a, v) :: L) st (st'.put loc (a, t, v)) := by
  intro o ho
  unfold DState.put at ho
  split at ho
  · exact (h o ho).imp (List.mem_cons_of_mem _) id
  · simp only [DState.objects, List.flatMap_cons, List.mem_append, List.mem_cons] at ho
    rcases ho with (ho | ho) | ho
    · exact .inl (by simp [ho])
    · exact (hv o ho).imp (List.mem_cons_of_mem _) id
    · exact (h o ho).imp (List.mem_cons_of_mem _) id

theorem hoards (hn : env.DistinctNames) : ∀ j t, Choices env D t → Hoards env root D j t := by
  refine lexInd fun j t ihj iht hc exc target loc segs st ok v st' hr => ?_
  have kept : v = target ∧ st' = st ∧ ok = false → Hoarded (topOf j + opens (isArray j) t * insideOf D j) target st v st' ∧
      (ok = false → ∃ L, holdings L ≤ opens (isArray j) t * insideOf D j ∧ Entered L st st') := by
    rintro ⟨rfl, rfl, -⟩
    exact ⟨.target _ _ _, fun _ => ⟨[], by simp [holdings], .refl _⟩⟩
  have within : ∀ (b : Nat) {w : Val} {sw : DState}, (∃ L, w.bulk + holdings L ≤ b + target.bulk ∧ holdings L ≤ b ∧ Sourced L st target.objects w.objects ∧ Entered L st sw) →
      b ≤ opens (isArray j) t * insideOf D j → Hoarded (topOf j + opens (isArray j) t * insideOf D j) target st w sw ∧
      (ok = false → ∃ L, holdings L ≤ opens (isArray j) t * insideOf D j ∧ Entered L st sw) := by
    rintro b w sw ⟨L, h1, h2, h3, h4⟩ hb
    exact ⟨⟨L, by omega, by omega, h3, h4⟩, fun _ => ⟨L, by omega, h4⟩⟩
  have hitem : ∀ js, j = .arr js → ∀ t', Inner env t t' → ∀ j' ∈ js, HoardsAll env root D j' t' := by
    rintro js rfl t' hi j' hj'
    exact (ihj j' (size_item hj') t' (hc.inner hi)).all (hc.inner hi)
  have hfield : ∀ ms, j = .obj ms → ∀ t', Inner env t t' → ∀ p ∈ ms, HoardsAll env root D p.2 t' := by
    rintro ms rfl t' hi p hp
    exact (ihj p.2 (size_field hp) t' (hc.inner hi)).all (hc.inner hi)
  cases t with
  | prim p =>
    rw [deser_prim] at hr
    split at hr
    · cases hr
    · obtain ⟨rfl, rfl, -⟩ := DRes.reject_done hr
      obtain ⟨h1, h2⟩ := spoil_top p j target
      refine ⟨⟨[], ?_, by simp [holdings], fun o ho => .inr (.inl (h2 o ho)), .refl _⟩, fun _ => ⟨[], by simp [holdings], .refl _⟩⟩
      simp only [holdings]
      omega
    · rename_i pv hpv
      cases hr
      have := desPrim_top env hpv
      refine ⟨⟨[], ?_, by simp [holdings], .nil, .refl _⟩, fun _ => ⟨[], by simp [holdings], .refl _⟩⟩
      simp only [holdings, Val.bulk]
      omega
  | vec t =>
    rw [deser_vec] at hr
    cases j with
    | arr js =>
      obtain ⟨vs, hvs, rfl⟩ := DRes.of_map hr
      obtain ⟨L, h1, h2, h3⟩ := runSame_keeps env hs root D t exc js (hitem js rfl t (.vec t)) _ _ _ _ _ _ _ hvs
      exact within (weighedItems D js) ⟨L, by simp only [Val.bulk]; omega, by omega, h2.weaken (fun _ h => by cases h) fun _ h => h, h3⟩ (by simp [opens, isArray, insideOf])
    | _ => exact kept (DRes.reject_done hr)
  | arr n t =>
    rw [deser_arr] at hr
    cases j with
    | arr js =>
      simp only at hr
      split at hr
      · cases hq : runSame env t exc (js.map (deser env root)) 0 loc segs st with
        | ub => rw [hq] at hr; cases hr
        | threw s e => rw [hq] at hr; cases hr
        | done o vs st1 =>
          rw [hq] at hr
          obtain ⟨L, h1, h2, h3⟩ := runSame_keeps env hs root D t exc js (hitem js rfl t (.arr n t)) _ _ _ _ _ _ _ hq
          cases o with
          | false =>
            cases hr
            exact within (weighedItems D js) ⟨L, by omega, by omega, .same, h3⟩ (by simp [opens, isArray, insideOf])
          | true =>
            cases hr
            have := partsBulk_le_itemsBulk vs
            exact within (weighedItems D js) ⟨L, by simp only [Val.bulk]; omega, by omega, h2.weaken (fun _ h => by cases h) fun _ h => h, h3⟩
              (by simp [opens, isArray, insideOf])
      · exact kept (DRes.reject_done hr)
    | _ => exact kept (DRes.reject_done hr)
  | set t =>
    rw [deser_set] at hr
    cases j with
    | arr js =>
      obtain ⟨vs, hvs, rfl⟩ := DRes.of_map hr
      obtain ⟨L, h1, h2, h3⟩ := runSame_keeps env hs root D t exc js (hitem js rfl t (.set t)) _ _ _ _ _ _ _ hvs
      have h4 := itemsBulk_fold env.less vs []
      simp only [itemsBulk] at h4
      exact within (weighedItems D js) ⟨L, by simp only [Val.bulk]; omega, by omega, h2.weaken (fun _ h => by cases h) fun o h =>
        (objectsAll_fold env.less vs [] o h).resolve_right (by simp [objectsAll]), h3⟩ (by simp [opens, isArray, insideOf])
    | _ => exact kept (DRes.reject_done hr)
  | map o t =>
    rw [deser_map] at hr
    cases j with
    | obj ms =>
      obtain ⟨vs, hvs, rfl⟩ := DRes.of_map hr
      obtain ⟨L, h1, h2, h3⟩ := runEntries_keeps env hs root D t exc ms (hfield ms rfl t (.map o t)) _ _ _ _ _ _ _ hvs
      have h4 := entriesBulk_fold vs []
      simp only [entriesBulk] at h4
      exact within (weighedFields D ms) ⟨L, by simp only [Val.bulk]; omega, by omega, h2.weaken (fun _ h => by cases h) fun o h =>
        (objectsVals_fold vs [] o h).resolve_right (by simp [objectsVals]), h3⟩ (by simp [opens, isArray, insideOf])
    | _ => exact kept (DRes.reject_done hr)
  | dict t =>
    rw [deser_dict] at hr
    cases j with
    | arr js =>
      obtain ⟨vs, hvs, rfl⟩ := DRes.of_map hr
      obtain ⟨L, h1, h2, h3⟩ := runSame_keeps env hs root D _ exc js (hitem js rfl _ (.dict t)) _ _ _ _ _ _ _ hvs
      have h4 := entriesBulk_dict vs
      exact within (weighedItems D js) ⟨L, by simp only [Val.bulk]; omega, by omega, h2.weaken (fun _ h => by cases h) (objectsVals_dict vs), h3⟩ (by simp [opens, isArray, insideOf])
    | _ => exact kept (DRes.reject_done hr)
  | tuple ts =>
    rw [deser_tuple] at hr
    cases j with
    | arr js =>
      simp only at hr
      split at hr
      · obtain ⟨vs, hvs, rfl⟩ := DRes.of_map hr
        obtain ⟨L, h1, h2, h3, h4⟩ := runTuple_keeps env hs root D exc js ts (fun j hj t ht => hitem js rfl t (.tuple ts t ht) j hj) _ _ _ _ _ _ _ _ hvs
        have h5 := components_bulk target
        exact within (weighedItems D js) ⟨L, by simp only [Val.bulk]; omega, by omega, h3.weaken (objects_components target) fun _ h => h, h4⟩ (by simp [opens, isArray, insideOf])
      · exact kept (DRes.reject_done hr)
    | _ => exact kept (DRes.reject_done hr)
  | variant ts =>
    rw [deser_variant] at hr
    cases hq : tryAll env root j ts 0 loc segs st with
    | ub => rw [hq] at hr; cases hr
    | threw s e => rw [hq] at hr; cases hr
    | done o w st1 =>
      rw [hq] at hr
      obtain ⟨h1, h2⟩ := tryAll_keeps env hs root D j ts (fun t ht => iht t (size_alt ht) (hc.inner (.variant ts t ht))) _ _ _ _ _ _ _ hq
      simp only [opens]
      cases o with
      | true =>
        cases hr
        obtain ⟨L, h3, h4, h5⟩ := h1 rfl
        exact ⟨⟨L, by omega, by omega, h4.weaken (fun _ h => by cases h) fun _ h => h, h5⟩, fun h => by cases h⟩
      | false =>
        obtain ⟨rfl, rfl, -⟩ := DRes.reject_done hr
        obtain ⟨L, h3, h4⟩ := h2 rfl
        exact ⟨⟨L, by omega, by omega, .same, h4⟩, fun _ => ⟨L, h3, h4⟩⟩
  | cls c =>
    rw [deser_cls] at hr
    cases j with
    | obj ms =>
      obtain ⟨vs, hvs, rfl⟩ := DRes.of_map hr
      obtain ⟨L, h1, h2, h3, h4⟩ := runMembers_keeps env hs root D exc ms loc segs (env.members c)
        (fun p hp m hm => hfield ms rfl m.ty (.cls c m hm) p hp) _ _ _ _ _ _ hvs
      have h5 := members_bulk target
      have h6 := foundIn_le D (env.members c) (hn c) ms
      exact within (foundIn D ms (env.members c)) ⟨L, by simp only [Val.bulk]; omega, h2, h3.weaken (objects_members target) fun _ h => h, h4⟩ (by simpa [opens, isArray, insideOf] using h6)
    | _ => exact kept (DRes.reject_done hr)
  | uptr t =>
    rw [deser_uptr] at hr
    simp only [opens]
    cases hq : deser env root j exc t (env.ctor t) loc segs st with
    | ub => rw [hq] at hr; cases hr
    | threw s e => rw [hq] at hr; cases hr
    | done o w st1 =>
      rw [hq] at hr
      obtain ⟨⟨L, h1, h2, h3, h4⟩, h5⟩ := iht t (by simp) (hc.inner (.uptr t)) _ _ _ _ _ _ _ _ hq
      rw [(hs.ctor t).1] at h1
      rw [(hs.ctor t).2] at h3
      cases o with
      | true =>
        cases hr
        exact ⟨⟨L, by simp only [Val.bulk]; omega, h2, h3.weaken (fun _ h => by cases h) fun _ h => h, h4⟩, fun h => by cases h⟩
      | false =>
        cases hr
        obtain ⟨M, h6, h7⟩ := h5 rfl
        exact ⟨⟨M, by omega, by omega, .same, h7⟩, fun _ => ⟨M, h6, h7⟩⟩
  | sptr t =>
    rw [deser_sptr] at hr
    simp only [opens]
    cases hm : refMember j with
    | some r =>
      rw [hm] at hr
      have kept' : v = target ∧ st' = st → Hoarded (topOf j + opens (isArray j) t * insideOf D j) target st v st' ∧
          (ok = false → ∃ L, holdings L ≤ opens (isArray j) t * insideOf D j ∧ Entered L st st') := by
        rintro ⟨rfl, rfl⟩
        exact ⟨.target _ _ _, fun _ => ⟨[], by simp [holdings], .refl _⟩⟩
      simp only [readRef] at hr
      split at hr
      · split at hr
        · cases hr
        · split at hr
          · cases hr; exact kept' ⟨rfl, rfl⟩
          · split at hr
            · cases hr; exact kept' ⟨rfl, rfl⟩
            · rename_i hl
              split at hr
              · cases hr
                refine ⟨⟨[], by simp [holdings, Val.bulk], by simp [holdings], fun o ho => .inr (.inr ?_), .refl _⟩, fun h => by cases h⟩
                exact lookup_objects hl o ho
              · cases hr
      · cases hr
    | none =>
      rw [hm] at hr
      simp only at hr
      cases hq : deser env root j exc t (env.ctor t) loc segs { st with next := st.next + 1 } with
      | ub => rw [hq] at hr; cases hr
      | threw s e => rw [hq] at hr; cases hr
      | done o w st1 =>
        rw [hq] at hr
        obtain ⟨⟨L, h1, h2, h3, h4⟩, h5⟩ := iht t (by simp) (hc.inner (.sptr t)) _ _ _ _ _ _ _ _ hq
        rw [(hs.ctor t).1] at h1
        rw [(hs.ctor t).2] at h3
        have h3' : ∀ o ∈ w.objects, o ∈ L ∨ o ∈ st.objects := fun o ho => (h3 o ho).imp id fun h => h.resolve_left (by simp)
        have h4' : Entered L st st1 := h4
        have hsrc : Sourced ((st.next, w) :: L) st target.objects (Val.sptr st.next w).objects := by
          intro o ho
          rcases List.mem_cons.1 ho with rfl | ho
          · exact .inl (by simp)
          · exact (h3' o ho).imp (List.mem_cons_of_mem _) .inr
        cases o with
        | true =>
          cases hr
          exact ⟨⟨(st.next, w) :: L, by simp only [Val.bulk, holdings]; omega, by simp only [holdings]; omega, hsrc, entered_put h4' _ _ _ _ h3'⟩, fun h => by cases h⟩
        | false =>
          cases hr
          obtain ⟨M, h6, h7⟩ := h5 rfl
          exact ⟨⟨(st.next, w) :: L, by simp only [Val.bulk, holdings]; omega, by simp only [holdings]; omega, hsrc,
            fun o ho => (h4' o ho).imp (List.mem_cons_of_mem _) id⟩, fun _ => ⟨M, h6, h7⟩⟩
end

/-! ## The measures -/

/-- By depth: everything counts at most `D` times for each level around it. -/
theorem weighed_depth (D : Nat) (hd : 1 ≤ D) (j : Json) : j.weighed D ≤ D ^ j.depth * j.extent := by
  have hp : ∀ n m, n ≤ m → ∀ x, D ^ n * x ≤ D ^ m * x := fun n m h x => Nat.mul_le_mul_right x (Nat.pow_le_pow_right hd h)
  have h1 : ∀ n x, x ≤ D ^ n * x := fun n x => Nat.le_mul_of_pos_left _ (Nat.pow_pos hd)
  refine Json.rec (motive_1 := fun j => j.weighed D ≤ D ^ j.depth * j.extent)
    (motive_2 := fun js => D * weighedItems D js ≤ D ^ (1 + Json.depthAll js) * extentItems js)
    (motive_3 := fun ms => D * weighedFields D ms ≤ D ^ (1 + Json.depthFields ms) * extentFields ms)
    (motive_4 := fun p => p.2.weighed D ≤ D ^ p.2.depth * p.2.extent) ?_ ?_ ?_ ?_ ?_ ?_ ?_ ?_ ?_ ?_ ?_ j
  · simp [Json.weighed, Json.extent, Json.depth]
  · intro b; simp [Json.weighed, Json.extent, Json.depth]
  · intro n; simp [Json.weighed, Json.extent, Json.depth]
  · intro s; simp [Json.weighed, Json.extent, Json.depth]
  · intro js ih
    simp only [Json.weighed, Json.extent, Json.depth, Nat.mul_add]
    have := h1 (1 + Json.depthAll js) 1
    omega
  · intro ms ih
    simp only [Json.weighed, Json.extent, Json.depth, Nat.mul_add]
    have := h1 (1 + Json.depthFields ms) 1
    omega
  · simp [weighedItems]
  · intro j js h2 h3
    simp only [weighedItems, extentItems, Json.depthAll, Nat.mul_add]
    have h4 := Nat.mul_le_mul_left D h2
    rw [← Nat.mul_assoc, ← Nat.pow_succ', Nat.succ_eq_add_one] at h4
    have h5 := hp (j.depth + 1) (1 + Nat.max j.depth (Json.depthAll js)) (by have := Nat.le_max_left j.depth (Json.depthAll js); change _ ≤ 1 + max _ _; omega) j.extent
    have h6 := hp (1 + Json.depthAll js) (1 + Nat.max j.depth (Json.depthAll js)) (by have := Nat.le_max_right j.depth (Json.depthAll js); change _ ≤ 1 + max _ _; omega) (extentItems js)
    omega
  · simp [weighedFields]
  · rintro ⟨k, j⟩ ms h2 h3
    simp only [weighedFields, extentFields, Json.depthFields, Nat.mul_add] at h2 ⊢
    have h4 := Nat.mul_le_mul_left D h2
    rw [← Nat.mul_assoc, ← Nat.pow_succ', Nat.succ_eq_add_one] at h4
    have h5 := hp (j.depth + 1) (1 + Nat.max j.depth (Json.depthFields ms)) (by have := Nat.le_max_left j.depth (Json.depthFields ms); change _ ≤ 1 + max _ _; omega) j.extent
    have h6 := hp (1 + Json.depthFields ms) (1 + Nat.max j.depth (Json.depthFields ms)) (by have := Nat.le_max_right j.depth (Json.depthFields ms); change _ ≤ 1 + max _ _; omega) (extentFields ms)
    have h7 := hp 1 (1 + Nat.max j.depth (Json.depthFields ms)) (by omega) 1
    have h8 := hp 1 (1 + Nat.max j.depth (Json.depthFields ms)) (by omega) k.length
    simp only [Nat.pow_one] at h7 h8
    omega
  · exact fun _ _ h => h

/-- The two measures of values differ in the objects: if each pointer is counted with its object, they agree. -/
theorem dyn_eq : ∀ v : Val, v.dyn = v.bulk + holdings v.objects := by
  have items : ∀ vs : List Val, (∀ v ∈ vs, v.dyn = v.bulk + holdings v.objects) → itemsDyn vs = itemsBulk vs + holdings (objectsAll vs) := by
    intro vs
    induction vs with
    | nil => intro _; rfl
    | cons v vs ih =>
      intro h
      have h1 := h v (by simp)
      have h2 := ih fun v hv => h v (by simp [hv])
      simp only [itemsDyn, itemsBulk, objectsAll, holdings_append]
      omega
  have parts : ∀ vs : List Val, (∀ v ∈ vs, v.dyn = v.bulk + holdings v.objects) → partsDyn vs = partsBulk vs + holdings (objectsAll vs) := by
    intro vs
    induction vs with
    | nil => intro _; rfl
    | cons v vs ih =>
      intro h
      have h1 := h v (by simp)
      have h2 := ih fun v hv => h v (by simp [hv])
      simp only [partsDyn, partsBulk, objectsAll, holdings_append]
      omega
  have entries : ∀ kvs : List (Str × Val), (∀ p ∈ kvs, p.2.dyn = p.2.bulk + holdings p.2.objects) → entriesDyn kvs = entriesBulk kvs + holdings (objectsVals kvs) := by
    intro kvs
    induction kvs with
    | nil => intro _; rfl
    | cons p kvs ih =>
      obtain ⟨k, v⟩ := p
      intro h
      have h1 : v.dyn = v.bulk + holdings v.objects := h (k, v) (by simp)
      have h2 := ih fun v hv => h v (by simp [hv])
      simp only [entriesDyn, entriesBulk, objectsVals, holdings_append]
      omega
  refine Val.strong fun v ih => ?_
  cases v with
  | prim p => simp [Val.dyn, Val.bulk, Val.objects, holdings]
  | seq vs => exact items vs fun w hw => ih w (by have := mem_size hw; simp; omega)
  | tup vs => exact parts vs fun w hw => ih w (by have := mem_size hw; simp; omega)
  | set vs => exact items vs fun w hw => ih w (by have := mem_size hw; simp; omega)
  | map kvs => exact entries kvs fun p hp => ih p.2 (by have := mem_size_kv hp; simp; omega)
  | dict kvs => exact entries kvs fun p hp => ih p.2 (by have := mem_size_kv hp; simp; omega)
  | alt i v => exact ih v (by simp; omega)
  | obj vs => exact parts vs fun w hw => ih w (by have := mem_size hw; simp; omega)
  | absent => rfl
  | present v => exact ih v (by simp)
  | nullptr => rfl
  | uptr v => exact ih v (by simp)
  | sptr a v =>
    have := ih v (by simp; omega)
    simp only [Val.dyn, Val.bulk, Val.objects, holdings]
    omega

end Verif.Core
