import Verif.RoundTrip
import Verif.ParseMeaning
import Verif.Narrow

/-!
# Addresses

`rename` gives the shared objects other addresses. Both serializers make of a value with other addresses what they
make of the value; both readers make objects at other addresses if the allocator returns other ones, and nothing else changes.
-/

namespace Verif.Core
open Verif.Numeric

theorem renameAll_eq (f : Nat → Nat) (vs : List Val) : renameAll f vs = vs.map (rename f) := by
  induction vs with
  | nil => rfl
  | cons v vs ih => simp [renameAll, ih]

/-! ## Writing -/

/-- The table with other addresses. -/
def STab.moved (f : Nat → Nat) (σ : STab) : STab := σ.map fun p => (f p.1, p.2)

/-- The result with other addresses in the table. -/
def SRes.moved {α : Type} (f : Nat → Nat) : SRes α → SRes α
  | .ub => .ub
  | .done σ r => .done (σ.moved f) r

/-- The calls, with other addresses in the table. -/
def WRes.moved (f : Nat → Nat) : WRes → WRes
  | .ub => .ub
  | .done σ ok es => .done (σ.moved f) ok es

theorem moved_lookup (f : Nat → Nat) (hf : ∀ a b, f a = f b → a = b) (σ : STab) (a : Nat) : (σ.moved f).lookup (f a) = σ.lookup a := by
  induction σ with
  | nil => rfl
  | cons p σ ih =>
    obtain ⟨b, s⟩ := p
    simp only [STab.moved, List.map_cons, List.lookup_cons] at ih ⊢
    by_cases h : a = b
    · subst h; simp
    · have h' : f a ≠ f b := fun e => h (hf _ _ e)
      rw [beq_false_of_ne h, beq_false_of_ne h']
      exact ih

theorem moved_put (f : Nat → Nat) (hf : ∀ a b, f a = f b → a = b) (σ : STab) (a : Nat) (segs : List Seg) :
    (σ.put a segs).moved f = (σ.moved f).put (f a) segs := by
  unfold STab.put
  rw [moved_lookup f hf]
  cases σ.lookup a <;> rfl

theorem moved_map {α β : Type} (f : Nat → Nat) (g : α → β) (r : SRes α) : (r.map g).moved f = (r.moved f).map g := by cases r <;> rfl

theorem moved_before (f : Nat → Nat) (pre : List Event) (r : WRes) : (r.before pre).moved f = (r.moved f).before pre := by cases r <;> rfl

theorem moved_close (f : Nat → Nat) (e : Event) (r : WRes) : (r.close e).moved f = (r.moved f).close e := by
  cases r with
  | ub => rfl
  | done σ ok es => cases ok <;> rfl

section
variable (env : Env) (f : Nat → Nat) (hf : ∀ a b, f a = f b → a = b)

/-- What is to be shown for one value. -/
def SerMoved (v : Val) : Prop := ∀ t segs σ, ser env (rename f v) t segs (σ.moved f) = (ser env v t segs σ).moved f

theorem serEntries_moved (t : Ty) (kvs : List (Str × Val)) (h : ∀ p ∈ kvs, SerMoved env f p.2) (segs : List Seg) (σ : STab) :
    serEntries (kvs.map fun p => (p.1, ser env (rename f p.2) t)) segs (σ.moved f) = (serEntries (kvs.map fun p => (p.1, ser env p.2 t)) segs σ).moved f := by
  induction kvs generalizing σ with
  | nil => rfl
  | cons p kvs ih =>
    obtain ⟨k, v⟩ := p
    simp only [List.map_cons, serEntries, h (k, v) (by simp) t]
    cases ser env v t (Seg.name k :: segs) σ with
    | ub => rfl
    | done σ' r =>
      cases r with
      | none => rfl
      | some j =>
        show SRes.map _ (serEntries _ segs (σ'.moved f)) = _
        rw [ih (fun p hp => h p (by simp [hp])), moved_map]

theorem serItems_moved (vs : List Val) (h : ∀ v ∈ vs, SerMoved env f v) (ts : List Ty) (k : Nat) (segs : List Seg) (σ : STab) :
    serItems env (vs.map (rename f)) ts k segs (σ.moved f) = (serItems env vs ts k segs σ).moved f := by
  induction vs generalizing ts k σ with
  | nil => cases ts <;> simp [serItems, SRes.moved]
  | cons v vs ih =>
    cases ts with
    | nil => simp [serItems, SRes.moved]
    | cons t ts =>
      simp only [List.map_cons, serItems, h v (by simp) t]
      cases ser env v t (.index k :: segs) σ with
      | ub => rfl
      | done σ' r =>
        cases r with
        | none => rfl
        | some j =>
          show SRes.map _ (serItems env _ ts (k + 1) segs (σ'.moved f)) = _
          rw [ih (fun p hp => h p (by simp [hp])), moved_map]

theorem serSet_moved (vs : List Val) (h : ∀ v ∈ vs, SerMoved env f v) (t : Ty) (segs : List Seg) (σ : STab) :
    serSet env (vs.map (rename f)) t segs (σ.moved f) = (serSet env vs t segs σ).moved f := by
  induction vs generalizing σ with
  | nil => simp [serSet, SRes.moved]
  | cons v vs ih =>
    simp only [List.map_cons, serSet, h v (by simp) t]
    cases ser env v t segs σ with
    | ub => rfl
    | done σ' r =>
      cases r with
      | none => rfl
      | some j =>
        show SRes.map _ (serSet env _ t segs (σ'.moved f)) = _
        rw [ih (fun p hp => h p (by simp [hp])), moved_map]

theorem serMembers_moved (vs : List Val) (h : ∀ v ∈ vs, SerMoved env f v ∧ ∀ w, v = .present w → SerMoved env f w) (ms : List Member) (segs : List Seg) (σ : STab) :
    serMembers env (vs.map (rename f)) ms segs (σ.moved f) = (serMembers env vs ms segs σ).moved f := by
  induction vs generalizing ms σ with
  | nil => cases ms <;> simp [serMembers, SRes.moved]
  | cons v vs ih =>
    have ih := ih (fun p hp => h p (by simp [hp]))
    cases ms with
    | nil => simp [serMembers, SRes.moved]
    | cons m ms =>
      have step : ∀ w, SerMoved env f w → (match ser env (rename f w) m.ty (Seg.name m.name :: segs) (σ.moved f) with
            | .ub => .ub
            | .done σ' none => serMembers env (vs.map (rename f)) ms segs σ'
            | .done σ' (some j) => (serMembers env (vs.map (rename f)) ms segs σ').map ((m.name, j) :: ·)) =
          SRes.moved f (match ser env w m.ty (Seg.name m.name :: segs) σ with
            | .ub => .ub
            | .done σ' none => serMembers env vs ms segs σ'
            | .done σ' (some j) => (serMembers env vs ms segs σ').map ((m.name, j) :: ·)) := by
        intro w hw
        rw [hw]
        cases ser env w m.ty (Seg.name m.name :: segs) σ with
        | ub => rfl
        | done σ' r =>
          cases r with
          | none => exact ih ms σ'
          | some j =>
            show SRes.map _ (serMembers env _ ms segs (σ'.moved f)) = _
            rw [ih, moved_map]
      rw [List.map_cons, serMembers.eq_def, serMembers.eq_def env (v :: vs)]
      obtain ⟨name, kind, ty⟩ := m
      cases kind with
      | optional =>
        cases v with
        | absent => exact ih ms σ
        | present w => exact step w ((h _ (by simp)).2 w rfl)
        | _ => rfl
      | required => exact step v (h _ (by simp)).1
      | default => exact step v (h _ (by simp)).1

include hf in
theorem ser_moved : ∀ v, SerMoved env f v := by
  intro v
  induction v using Val.strong with
  | _ v ih =>
    intro t segs σ
    have hv : ∀ vs : List Val, sizeOf vs < sizeOf v → ∀ w ∈ vs, SerMoved env f w := fun vs h w hw => ih w (Nat.lt_trans (mem_size hw) h)
    have hkv : ∀ kvs : List (Str × Val), sizeOf kvs < sizeOf v → ∀ p ∈ kvs, SerMoved env f p.2 := fun kvs h p hp => ih p.2 (Nat.lt_trans (mem_size_kv hp) h)
    cases v with
    | prim p =>
      cases t with
      | prim k => simp only [rename, ser]; cases serPrim env k p <;> rfl
      | _ => rfl
    | seq vs =>
      cases t with
      | vec t => simp only [rename, renameAll_eq, ser, List.length_map, serItems_moved env f vs (hv vs (by simp +arith)), moved_map]
      | _ => rfl
    | tup vs =>
      cases t with
      | arr n t =>
        simp only [rename, renameAll_eq, ser, List.length_map]
        split
        · simp only [serItems_moved env f vs (hv vs (by simp +arith)), moved_map]
        · rfl
      | tuple ts => simp only [rename, renameAll_eq, ser, serItems_moved env f vs (hv vs (by simp +arith)), moved_map]
      | _ => rfl
    | set vs =>
      cases t with
      | set t => simp only [rename, renameAll_eq, ser, serSet_moved env f vs (hv vs (by simp +arith)), moved_map]
      | _ => rfl
    | map kvs =>
      cases t with
      | map o t =>
        simp only [rename, renameVals_eq, ser, serVals_eq, List.map_map, Function.comp_def]
        rw [iterate_map (g := fun p => ser env p.2 t), iterate_map (g := fun p => ser env (rename f p.2) t),
          serEntries_moved env f t _ fun p hp => hkv kvs (by simp +arith) p (of_iterate hp), moved_map]
      | _ => rfl
    | dict kvs =>
      cases t with
      | dict t =>
        simp only [rename, renameVals_eq, ser, serVals_eq, List.map_map, Function.comp_def]
        rw [serEntries_moved env f t _ (hkv kvs (by simp +arith)), moved_map]
      | _ => rfl
    | alt i v =>
      cases t with
      | variant ts =>
        simp only [rename, ser]
        cases ts[i]? with
        | none => rfl
        | some t => exact ih v (by simp +arith) t segs σ
      | _ => rfl
    | obj vs =>
      cases t with
      | cls c =>
        simp only [rename, renameAll_eq, ser]
        rw [serMembers_moved env f vs fun w hw => ⟨hv vs (by simp +arith) w hw, fun u hu => ih u (by have := mem_size hw; subst hu; simp at this ⊢; omega)⟩, moved_map]
      | _ => rfl
    | uptr v =>
      cases t with
      | uptr t => simp only [rename, ser]; exact ih v (by simp +arith) t segs σ
      | _ => rfl
    | sptr a v =>
      cases t with
      | sptr t =>
        simp only [rename, ser, STab.get, moved_lookup f hf]
        cases σ.lookup a with
        | some s => rfl
        | none =>
          simp only [ih v (by simp +arith) t segs σ]
          cases ser env v t segs σ with
          | ub => rfl
          | done σ' r =>
            cases r with
            | none => rfl
            | some j => simp only [SRes.moved, moved_put f hf]
      | _ => rfl
    | _ => cases t <;> rfl

/-- What is to be shown for one value. -/
def WrMoved (v : Val) : Prop := ∀ t segs σ, wr env (rename f v) t segs (σ.moved f) = (wr env v t segs σ).moved f

theorem writeEntries_moved (t : Ty) (kvs : List (Str × Val)) (h : ∀ p ∈ kvs, WrMoved env f p.2) (segs : List Seg) (σ : STab) :
    writeEntries (kvs.map fun p => (p.1, wr env (rename f p.2) t)) segs (σ.moved f) = (writeEntries (kvs.map fun p => (p.1, wr env p.2 t)) segs σ).moved f := by
  induction kvs generalizing σ with
  | nil => rfl
  | cons p kvs ih =>
    obtain ⟨k, v⟩ := p
    simp only [List.map_cons, writeEntries, h (k, v) (by simp) t]
    cases wr env v t (Seg.name k :: segs) σ with
    | ub => rfl
    | done σ' ok es =>
      cases ok with
      | false => rfl
      | true =>
        show WRes.before _ (writeEntries _ segs (σ'.moved f)) = _
        rw [ih (fun p hp => h p (by simp [hp])), moved_before]

theorem wrItems_moved (vs : List Val) (h : ∀ v ∈ vs, WrMoved env f v) (ts : List Ty) (k : Nat) (segs : List Seg) (σ : STab) :
    wrItems env (vs.map (rename f)) ts k segs (σ.moved f) = (wrItems env vs ts k segs σ).moved f := by
  induction vs generalizing ts k σ with
  | nil => cases ts <;> simp [wrItems, WRes.moved]
  | cons v vs ih =>
    cases ts with
    | nil => simp [wrItems, WRes.moved]
    | cons t ts =>
      simp only [List.map_cons, wrItems, h v (by simp) t]
      cases wr env v t (.index k :: segs) σ with
      | ub => rfl
      | done σ' ok es =>
        cases ok with
        | false => rfl
        | true =>
          show WRes.before _ (wrItems env _ ts (k + 1) segs (σ'.moved f)) = _
          rw [ih (fun p hp => h p (by simp [hp])), moved_before]

theorem wrSet_moved (vs : List Val) (h : ∀ v ∈ vs, WrMoved env f v) (t : Ty) (segs : List Seg) (σ : STab) :
    wrSet env (vs.map (rename f)) t segs (σ.moved f) = (wrSet env vs t segs σ).moved f := by
  induction vs generalizing σ with
  | nil => simp [wrSet, WRes.moved]
  | cons v vs ih =>
    simp only [List.map_cons, wrSet, h v (by simp) t]
    cases wr env v t segs σ with
    | ub => rfl
    | done σ' ok es =>
      cases ok with
      | false => rfl
      | true =>
        show WRes.before _ (wrSet env _ t segs (σ'.moved f)) = _
        rw [ih (fun p hp => h p (by simp [hp])), moved_before]

theorem wrMembers_moved (vs : List Val) (h : ∀ v ∈ vs, WrMoved env f v ∧ ∀ w, v = .present w → WrMoved env f w) (ms : List Member) (segs : List Seg) (σ : STab) :
    wrMembers env (vs.map (rename f)) ms segs (σ.moved f) = (wrMembers env vs ms segs σ).moved f := by
  induction vs generalizing ms σ with
  | nil => cases ms <;> simp [wrMembers, WRes.moved]
  | cons v vs ih =>
    have ih := ih (fun p hp => h p (by simp [hp]))
    cases ms with
    | nil => simp [wrMembers, WRes.moved]
    | cons m ms =>
      have step : ∀ w, WrMoved env f w → (match wr env (rename f w) m.ty (Seg.name m.name :: segs) (σ.moved f) with
            | .ub => .ub
            | .done σ' false es => .done σ' false (.key m.name :: es)
            | .done σ' true es => (wrMembers env (vs.map (rename f)) ms segs σ').before (.key m.name :: es)) =
          WRes.moved f (match wr env w m.ty (Seg.name m.name :: segs) σ with
            | .ub => .ub
            | .done σ' false es => .done σ' false (.key m.name :: es)
            | .done σ' true es => (wrMembers env vs ms segs σ').before (.key m.name :: es)) := by
        intro w hw
        rw [hw]
        cases wr env w m.ty (Seg.name m.name :: segs) σ with
        | ub => rfl
        | done σ' ok es =>
          cases ok with
          | false => rfl
          | true =>
            show WRes.before _ (wrMembers env _ ms segs (σ'.moved f)) = _
            rw [ih, moved_before]
      rw [List.map_cons, wrMembers.eq_def, wrMembers.eq_def env (v :: vs)]
      obtain ⟨name, kind, ty⟩ := m
      cases kind with
      | optional =>
        cases v with
        | absent => exact ih ms σ
        | present w => exact step w ((h _ (by simp)).2 w rfl)
        | _ => rfl
      | required => exact step v (h _ (by simp)).1
      | default => exact step v (h _ (by simp)).1

include hf in
theorem wr_moved : ∀ v, WrMoved env f v := by
  intro v
  induction v using Val.strong with
  | _ v ih =>
    intro t segs σ
    have hv : ∀ vs : List Val, sizeOf vs < sizeOf v → ∀ w ∈ vs, WrMoved env f w := fun vs h w hw => ih w (Nat.lt_trans (mem_size hw) h)
    have hkv : ∀ kvs : List (Str × Val), sizeOf kvs < sizeOf v → ∀ p ∈ kvs, WrMoved env f p.2 := fun kvs h p hp => ih p.2 (Nat.lt_trans (mem_size_kv hp) h)
    cases v with
    | prim p =>
      cases t with
      | prim k => simp only [rename, wr]; cases serPrim env k p <;> rfl
      | _ => rfl
    | seq vs =>
      cases t with
      | vec t => simp only [rename, renameAll_eq, wr, List.length_map, wrItems_moved env f vs (hv vs (by simp +arith)), moved_close, moved_before]
      | _ => rfl
    | tup vs =>
      cases t with
      | arr n t =>
        simp only [rename, renameAll_eq, wr, List.length_map]
        split
        · simp only [wrItems_moved env f vs (hv vs (by simp +arith)), moved_close, moved_before]
        · rfl
      | tuple ts => simp only [rename, renameAll_eq, wr, wrItems_moved env f vs (hv vs (by simp +arith)), moved_close, moved_before]
      | _ => rfl
    | set vs =>
      cases t with
      | set t => simp only [rename, renameAll_eq, wr, wrSet_moved env f vs (hv vs (by simp +arith)), moved_close, moved_before]
      | _ => rfl
    | map kvs =>
      cases t with
      | map o t =>
        simp only [rename, renameVals_eq, wr, wrVals_eq, List.map_map, Function.comp_def]
        rw [iterate_map (g := fun p => wr env p.2 t), iterate_map (g := fun p => wr env (rename f p.2) t),
          writeEntries_moved env f t _ fun p hp => hkv kvs (by simp +arith) p (of_iterate hp), moved_close, moved_before]
      | _ => rfl
    | dict kvs =>
      cases t with
      | dict t =>
        simp only [rename, renameVals_eq, wr, wrVals_eq, List.map_map, Function.comp_def]
        rw [writeEntries_moved env f t _ (hkv kvs (by simp +arith)), moved_close, moved_before]
      | _ => rfl
    | alt i v =>
      cases t with
      | variant ts =>
        simp only [rename, wr]
        cases ts[i]? with
        | none => rfl
        | some t => exact ih v (by simp +arith) t segs σ
      | _ => rfl
    | obj vs =>
      cases t with
      | cls c =>
        simp only [rename, renameAll_eq, wr]
        rw [wrMembers_moved env f vs fun w hw => ⟨hv vs (by simp +arith) w hw, fun u hu => ih u (by have := mem_size hw; subst hu; simp at this ⊢; omega)⟩, moved_close, moved_before]
      | _ => rfl
    | uptr v =>
      cases t with
      | uptr t => simp only [rename, wr]; exact ih v (by simp +arith) t segs σ
      | _ => rfl
    | sptr a v =>
      cases t with
      | sptr t =>
        simp only [rename, wr, STab.get, moved_lookup f hf]
        cases σ.lookup a with
        | some s => rfl
        | none =>
          simp only [ih v (by simp +arith) t segs σ]
          cases wr env v t segs σ with
          | ub => rfl
          | done σ' ok es =>
            cases ok with
            | false => rfl
            | true => simp only [WRes.moved, moved_put f hf]
      | _ => rfl
    | _ => cases t <;> rfl

end

/-- A renaming of the addresses in `v` comes from a renaming of all addresses. -/
theorem extend_injective (f : Nat → Nat) (as : List Nat) (hf : ∀ a ∈ as, ∀ b ∈ as, f a = f b → a = b) :
    ∃ g : Nat → Nat, (∀ a b, g a = g b → a = b) ∧ ∀ a ∈ as, g a = f a := by
  obtain ⟨M, hM⟩ : ∃ M, ∀ a ∈ as, f a < M := by
    clear hf
    induction as with
    | nil => exact ⟨0, by simp⟩
    | cons a as ih =>
      obtain ⟨M, hM⟩ := ih
      refine ⟨M + f a + 1, fun b hb => ?_⟩
      rcases List.mem_cons.1 hb with rfl | hb
      · omega
      · have := hM b hb; omega
  refine ⟨fun a => if a ∈ as then f a else a + M, fun a b h => ?_, fun a ha => if_pos ha⟩
  simp only at h
  split at h <;> split at h
  · rename_i ha hb; exact hf a ha b hb h
  · rename_i ha hb; have := hM a ha; omega
  · rename_i ha hb; have := hM b hb; omega
  · omega

theorem document_moved (env : Env) (t : Ty) (f : Nat → Nat) (v : Val) (hf : ∀ a ∈ addrs v, ∀ b ∈ addrs v, f a = f b → a = b) :
    serializeToDocument env t (rename f v) = serializeToDocument env t v := by
  obtain ⟨g, hg, h⟩ := extend_injective f (addrs v) hf
  rw [← rename_congr g f v h]
  have := ser_moved env g hg v t [] []
  simp only [STab.moved, List.map_nil] at this
  unfold serializeToDocument
  rw [this]
  cases ser env v t [] [] <;> rfl

theorem text_moved (env : Env) (t : Ty) (f : Nat → Nat) (v : Val) (hf : ∀ a ∈ addrs v, ∀ b ∈ addrs v, f a = f b → a = b) (before : List Event) :
    writeToString env t (rename f v) before = writeToString env t v before := by
  obtain ⟨g, hg, h⟩ := extend_injective f (addrs v) hf
  rw [← rename_congr g f v h]
  have := wr_moved env g hg v t [] []
  simp only [STab.moved, List.map_nil] at this
  unfold writeToString
  rw [this]
  cases wr env v t [] [] with
  | ub => rfl
  | done σ ok es => cases ok <;> rfl

/-! ## Reading -/

/-- The values that the environment provides do not depend on addresses, and `std::less` gives the same answers for the new ones.
(Default-constructed pointers are null. `std::less` compares addresses if the elements are pointers.) -/
structure Env.Blind (env : Env) (f : Nat → Nat) : Prop where
  fresh : ∀ t, rename f (env.fresh t) = env.fresh t
  ctor : ∀ t, rename f (env.ctor t) = env.ctor t
  less : ∀ v w, env.less (rename f v) (rename f w) = env.less v w

/-- The same table with other addresses; the next address of the allocator and those after it are renamed likewise. -/
structure DState.Moved (f : Nat → Nat) (st st' : DState) : Prop where
  refs : st'.refs = st.refs.map fun p => (p.1, f p.2.1, p.2.2.1, rename f p.2.2.2)
  next : ∀ k, f (st.next + k) = st'.next + k

/-- The same outcome with other addresses. -/
inductive DRes.Moved {α : Type} (f : Nat → Nat) (g : α → α) : DRes α → DRes α → Prop
  | ub : DRes.Moved f g .ub .ub
  | threw (s : List Seg) (e : Err) : DRes.Moved f g (.threw s e) (.threw s e)
  | done (ok : Bool) (a : α) (st st' : DState) (h : st.Moved f st') : DRes.Moved f g (.done ok a st) (.done ok (g a) st')

theorem DRes.Moved.map {α β : Type} {f : Nat → Nat} {g : α → α} {h : β → β} {r r' : DRes α} (hr : DRes.Moved f g r r') {k k' : α → β}
    (hk : ∀ a, k' (g a) = h (k a)) : DRes.Moved f h (r.map k) (r'.map k') := by
  cases hr with
  | ub => exact .ub
  | threw => exact .threw _ _
  | done ok a st st' hs => simp only [DRes.map, hk]; exact .done _ _ _ _ hs

theorem reject_moved {α : Type} {f : Nat → Nat} {g : α → α} (exc : Bool) (segs : List Seg) (e : Err) (target : α) {st st' : DState} (h : st.Moved f st') :
    DRes.Moved f g (.reject exc segs e target st) (.reject exc segs e (g target) st') := by
  cases exc
  · exact .done _ _ _ _ h
  · exact .threw _ _

theorem moved_get {f : Nat → Nat} {st st' : DState} (h : st.Moved f st') (loc : Loc) :
    st'.get loc = (st.get loc).map fun p => (f p.1, p.2.1, rename f p.2.2) := by
  unfold DState.get
  rw [h.refs]
  induction st.refs with
  | nil => rfl
  | cons p refs ih =>
    obtain ⟨l, x⟩ := p
    simp only [List.map_cons, List.lookup_cons]
    cases loc == l
    · exact ih
    · rfl

theorem moved_dput {f : Nat → Nat} {st st' : DState} (h : st.Moved f st') (loc : Loc) (a : Nat) (t : Ty) (v : Val) :
    (st.put loc (a, t, v)).Moved f (st'.put loc (f a, t, rename f v)) := by
  have hg := moved_get h loc
  unfold DState.get at hg
  unfold DState.put
  rw [hg]
  cases st.refs.lookup loc with
  | some x => exact h
  | none => exact ⟨by simp [h.refs], h.next⟩

section
variable (env : Env) (f : Nat → Nat) (hb : env.Blind f) (root : Json)

/-- What is to be shown for the reader of one node. -/
def FnMoved (fn : DesFn) : Prop := ∀ exc t target loc segs st st', DState.Moved f st st' →
  DRes.Moved f (rename f) (fn exc t target loc segs st) (fn exc t (rename f target) loc segs st')

include hb in
theorem runSame_moved (t : Ty) (exc : Bool) (fs : List DesFn) (h : ∀ fn ∈ fs, FnMoved f fn) : ∀ k loc segs st st', DState.Moved f st st' →
    DRes.Moved f (List.map (rename f)) (runSame env t exc fs k loc segs st) (runSame env t exc fs k loc segs st') := by
  induction fs with
  | nil => intro k loc segs st st' hs; exact .done _ [] _ _ hs
  | cons fn fs ih =>
    intro k loc segs st st' hs
    have h1 := h fn (by simp) exc t (env.fresh t) (k :: loc) (.index k :: segs) st st' hs
    rw [hb.fresh] at h1
    simp only [runSame]
    generalize fn exc t (env.fresh t) (k :: loc) (.index k :: segs) st = r at h1 ⊢
    generalize fn exc t (env.fresh t) (k :: loc) (.index k :: segs) st' = r' at h1 ⊢
    cases h1 with
    | ub => exact .ub
    | threw => exact .threw _ _
    | done ok a st1 st1' hs1 =>
      cases ok with
      | false => exact .done _ [] _ _ hs1
      | true => simp only; exact (ih (fun fn hfn => h fn (by simp [hfn])) (k + 1) loc segs st1 st1' hs1).map (fun _ => rfl)

include hb in
theorem runEntries_moved (t : Ty) (exc : Bool) (fs : List (Str × DesFn)) (h : ∀ p ∈ fs, FnMoved f p.2) : ∀ k loc segs st st', DState.Moved f st st' →
    DRes.Moved f (List.map fun p => (p.1, rename f p.2)) (runEntries env t exc fs k loc segs st) (runEntries env t exc fs k loc segs st') := by
  induction fs with
  | nil => intro k loc segs st st' hs; exact .done _ [] _ _ hs
  | cons p fs ih =>
    obtain ⟨key, fn⟩ := p
    intro k loc segs st st' hs
    have h1 := h (key, fn) (by simp) exc t (env.fresh t) (k :: loc) (Seg.name (cstr key) :: segs) st st' hs
    rw [hb.fresh] at h1
    simp only at h1
    simp only [runEntries]
    generalize fn exc t (env.fresh t) (k :: loc) (Seg.name (cstr key) :: segs) st = r at h1 ⊢
    generalize fn exc t (env.fresh t) (k :: loc) (Seg.name (cstr key) :: segs) st' = r' at h1 ⊢
    cases h1 with
    | ub => exact .ub
    | threw => exact .threw _ _
    | done ok a st1 st1' hs1 =>
      cases ok with
      | false => exact .done _ [] _ _ hs1
      | true => simp only; exact (ih (fun fn hfn => h fn (by simp [hfn])) (k + 1) loc segs st1 st1' hs1).map (fun _ => rfl)

theorem headD_rename (targets : List Val) (v : Val) (hv : rename f v = v) : (targets.map (rename f)).headD v = rename f (targets.headD v) := by
  cases targets with
  | nil => exact hv.symm
  | cons => rfl

include hb in
theorem runTuple_moved (exc : Bool) (fs : List DesFn) (h : ∀ fn ∈ fs, FnMoved f fn) : ∀ ts targets k loc segs st st', DState.Moved f st st' →
    DRes.Moved f (List.map (rename f)) (runTuple env exc fs ts targets k loc segs st)
      (runTuple env exc fs ts (targets.map (rename f)) k loc segs st') := by
  induction fs with
  | nil => intro ts targets k loc segs st st' hs; exact .done _ [] _ _ hs
  | cons fn fs ih =>
    intro ts targets k loc segs st st' hs
    cases ts with
    | nil => exact .done _ [] _ _ hs
    | cons t ts =>
      have h1 := h fn (by simp) exc t (targets.headD (env.fresh t)) (k :: loc) (.index k :: segs) st st' hs
      rw [← headD_rename f targets _ (hb.fresh t)] at h1
      simp only [runTuple]
      generalize fn exc t (targets.headD (env.fresh t)) (k :: loc) (.index k :: segs) st = r at h1 ⊢
      generalize fn exc t ((targets.map (rename f)).headD (env.fresh t)) (k :: loc) (.index k :: segs) st' = r' at h1 ⊢
      cases h1 with
      | ub => exact .ub
      | threw => exact .threw _ _
      | done ok a st1 st1' hs1 =>
        cases ok with
        | false =>
          have := DRes.Moved.done (f := f) (g := List.map (rename f)) false (a :: targets.tail) st1 st1' hs1
          simpa using this
        | true =>
          have := ih (fun fn hfn => h fn (by simp [hfn])) ts targets.tail (k + 1) loc segs st1 st1' hs1
          rw [List.map_tail] at this
          exact this.map (fun _ => rfl)

include hb in
theorem runMembers_moved (exc : Bool) (fs : List (Str × DesFn)) (h : ∀ p ∈ fs, FnMoved f p.2) (loc : Loc) (segs : List Seg) (ms : List Member) :
    ∀ targets res st st', DState.Moved f st st' →
      DRes.Moved f (List.map (rename f)) (runMembers env exc fs loc segs ms targets res st)
        (runMembers env exc fs loc segs ms (targets.map (rename f)) res st') := by
  induction ms with
  | nil => intro targets res st st' hs; exact .done _ [] _ _ hs
  | cons m ms ih =>
    intro targets res st st' hs
    have ht : ∀ res st st', DState.Moved f st st' → DRes.Moved f (List.map (rename f)) (runMembers env exc fs loc segs ms targets.tail res st)
        (runMembers env exc fs loc segs ms (targets.map (rename f)).tail res st') := by
      intro res st st' hs
      rw [← List.map_tail]
      exact ih targets.tail res st st' hs
    simp only [runMembers, headD_rename f targets _ (hb.fresh m.ty)]
    cases hm : findMember m.name fs with
    | some q =>
      obtain ⟨i, fn⟩ := q
      have hfn : FnMoved f fn := h _ (findMember_mem hm)
      have h1 := hfn exc m.ty (if m.kind = .optional then env.fresh m.ty else targets.headD (env.fresh m.ty)) (i :: loc) (Seg.name (cstr m.name) :: segs) st st' hs
      rw [apply_ite (rename f), hb.fresh] at h1
      simp only
      generalize fn exc m.ty (if m.kind = .optional then env.fresh m.ty else targets.headD (env.fresh m.ty)) (i :: loc) (Seg.name (cstr m.name) :: segs) st = r at h1 ⊢
      generalize fn exc m.ty (if m.kind = .optional then env.fresh m.ty else rename f (targets.headD (env.fresh m.ty))) (i :: loc) (Seg.name (cstr m.name) :: segs) st' = r' at h1 ⊢
      cases h1 with
      | ub => exact .ub
      | threw => exact .threw _ _
      | done ok a st1 st1' hs1 =>
        have h2 : (if m.kind = .optional then Val.present (rename f a) else rename f a) = rename f (if m.kind = .optional then .present a else a) := by
          split <;> rfl
        simp only [h2]
        exact (ht ok st1 st1' hs1).map (fun _ => rfl)
    | none =>
      simp only
      cases m.kind with
      | optional => exact (ht res st st' hs).map (fun _ => rfl)
      | default => exact (ht res st st' hs).map (fun _ => rfl)
      | required =>
        simp only
        split
        · exact .threw _ _
        · exact (ht false st st' hs).map (fun _ => rfl)

theorem setInsert_rename (less : Val → Val → Bool) (hl : ∀ v w, less (rename f v) (rename f w) = less v w) (x : Val) (vs : List Val) :
    setInsert less (rename f x) (vs.map (rename f)) = (setInsert less x vs).map (rename f) := by
  induction vs with
  | nil => rfl
  | cons v vs ih =>
    simp only [List.map_cons, setInsert, hl, ih]
    split
    · rfl
    · split <;> rfl

theorem setFold_rename (less : Val → Val → Bool) (hl : ∀ v w, less (rename f v) (rename f w) = less v w) (vs : List Val) : ∀ us : List Val,
    (vs.map (rename f)).foldl (fun s v => setInsert less v s) (us.map (rename f)) = (vs.foldl (fun s v => setInsert less v s) us).map (rename f) := by
  induction vs with
  | nil => intro us; rfl
  | cons v vs ih => intro us; simp only [List.map_cons, List.foldl_cons, setInsert_rename f less hl, ih]

theorem mapAssign_rename (k : Str) (v : Val) (kvs : List (Str × Val)) :
    mapAssign k (rename f v) (kvs.map fun p => (p.1, rename f p.2)) = (mapAssign k v kvs).map fun p => (p.1, rename f p.2) := by
  induction kvs with
  | nil => rfl
  | cons p kvs ih =>
    obtain ⟨k', v'⟩ := p
    simp only [List.map_cons, mapAssign, ih]
    split
    · rfl
    · split <;> rfl

theorem mapFold_rename (ps : List (Str × Val)) : ∀ kvs : List (Str × Val),
    (ps.map fun p => (p.1, rename f p.2)).foldl (fun s p => mapAssign p.1 p.2 s) (kvs.map fun p => (p.1, rename f p.2)) =
      (ps.foldl (fun s p => mapAssign p.1 p.2 s) kvs).map fun p => (p.1, rename f p.2) := by
  induction ps with
  | nil => intro us; rfl
  | cons v vs ih => intro us; simp only [List.map_cons, List.foldl_cons, mapAssign_rename, ih]

theorem dictEntry_rename (v : Val) : dictEntry (rename f v) = ((dictEntry v).1, rename f (dictEntry v).2) := by
  cases v with
  | tup vs =>
    match vs with
    | [] => rfl
    | [a] =>
      cases a with
      | prim p => cases p <;> rfl
      | _ => rfl
    | [a, b] =>
      cases a with
      | prim p => cases p <;> rfl
      | _ => rfl
    | a :: _ :: _ :: _ =>
      cases a with
      | prim p => cases p <;> rfl
      | _ => rfl
  | _ => rfl

theorem members_rename (v : Val) : (rename f v).members = v.members.map (rename f) := by
  cases v <;> simp [rename, Val.members, renameAll_eq]

theorem components_rename (v : Val) : (rename f v).components = v.components.map (rename f) := by
  cases v <;> simp [rename, Val.components, renameAll_eq]

theorem readRef_moved (t : Ty) (r : Json) (target : Val) (st st' : DState) (hs : DState.Moved f st st') :
    DRes.Moved f (rename f) (readRef env root t r target st) (readRef env root t r (rename f target) st') := by
  unfold readRef
  split
  · split
    · exact .ub
    · split
      · exact .done _ _ _ _ hs
      · rename_i q _
        rw [moved_get hs]
        cases st.get q.reverse with
        | none => exact .done _ _ _ _ hs
        | some x =>
          obtain ⟨a, t', v⟩ := x
          simp only [Option.map]
          split
          · exact .done true (Val.sptr a v) _ _ hs
          · exact .ub
  · exact .ub

section
variable (j : Json) (items : List DesFn) (fields : List (Str × DesFn)) (hi : ∀ fn ∈ items, FnMoved f fn) (hm : ∀ p ∈ fields, FnMoved f p.2)

include hb hi hm

mutual
theorem node_moved : ∀ t : Ty, FnMoved f fun exc _ => node env root j items fields t exc
  | .prim p => by
    intro exc _ target loc segs st st' hs
    simp only [node]
    cases desPrim env p j with
    | ub => exact .ub
    | ok pv => exact .done true (Val.prim pv) _ _ hs
    | reject e =>
      have : spoil p j (rename f target) = rename f (spoil p j target) := by
        unfold spoil
        split
        · rfl
        · rfl
      simp only [this]
      exact reject_moved _ _ _ _ hs
  | .vec t => by
    intro exc _ target loc segs st st' hs
    cases j with
    | arr js => simp only [node]; exact (runSame_moved env f hb t exc items hi 0 loc segs st st' hs).map fun _ => by simp [rename, renameAll_eq]
    | _ => exact reject_moved _ _ _ _ hs
  | .arr n t => by
    intro exc _ target loc segs st st' hs
    cases j with
    | arr js =>
      simp only [node]
      split
      · have h1 := runSame_moved env f hb t exc items hi 0 loc segs st st' hs
        generalize runSame env t exc items 0 loc segs st = r at h1 ⊢
        generalize runSame env t exc items 0 loc segs st' = r' at h1 ⊢
        cases h1 with
        | ub => exact .ub
        | threw => exact .threw _ _
        | done ok a st1 st1' hs1 =>
          cases ok with
          | false => exact .done _ _ _ _ hs1
          | true =>
            have := DRes.Moved.done (f := f) (g := rename f) true (.tup a) st1 st1' hs1
            simpa [rename, renameAll_eq] using this
      · exact reject_moved _ _ _ _ hs
    | _ => exact reject_moved _ _ _ _ hs
  | .set t => by
    intro exc _ target loc segs st st' hs
    cases j with
    | arr js =>
      simp only [node]
      exact (runSame_moved env f hb t exc items hi 0 loc segs st st' hs).map fun vs => by
        have := setFold_rename f env.less hb.less vs []
        simp only [rename, renameAll_eq]
        rw [← this]; rfl
    | _ => exact reject_moved _ _ _ _ hs
  | .map o t => by
    intro exc _ target loc segs st st' hs
    cases j with
    | obj ms =>
      simp only [node]
      exact (runEntries_moved env f hb t exc fields hm 0 loc segs st st' hs).map fun ps => by
        have := mapFold_rename f ps []
        simp only [rename, renameVals_eq]
        rw [← this]; rfl
    | _ => exact reject_moved _ _ _ _ hs
  | .dict t => by
    intro exc _ target loc segs st st' hs
    cases j with
    | arr js =>
      simp only [node]
      exact (runSame_moved env f hb _ exc items hi 0 loc segs st st' hs).map fun vs => by
        simp [rename, renameVals_eq, dictEntry_rename]
    | _ => exact reject_moved _ _ _ _ hs
  | .tuple ts => by
    intro exc _ target loc segs st st' hs
    cases j with
    | arr js =>
      simp only [node, components_rename]
      split
      · exact (runTuple_moved env f hb exc items hi ts target.components 0 loc segs st st' hs).map fun vs => by simp [rename, renameAll_eq]
      · exact reject_moved _ _ _ _ hs
    | _ => exact reject_moved _ _ _ _ hs
  | .variant ts => by
    intro exc _ target loc segs st st' hs
    simp only [node]
    have h1 := alternatives_moved ts 0 loc segs st st' hs
    generalize alternatives env root j items fields ts 0 loc segs st = r at h1 ⊢
    generalize alternatives env root j items fields ts 0 loc segs st' = r' at h1 ⊢
    cases h1 with
    | ub => exact .ub
    | threw => exact .threw _ _
    | done ok a st1 st1' hs1 =>
      cases ok with
      | false => exact reject_moved _ _ _ _ hs1
      | true => exact .done _ _ _ _ hs1
  | .cls c => by
    intro exc _ target loc segs st st' hs
    cases j with
    | obj ms =>
      simp only [node, members_rename]
      exact (runMembers_moved env f hb exc fields hm loc segs (env.members c) target.members true st st' hs).map fun vs => by simp [rename, renameAll_eq]
    | _ => exact reject_moved _ _ _ _ hs
  | .uptr t => by
    intro exc _ target loc segs st st' hs
    simp only [node]
    have h1 := node_moved t exc t (env.ctor t) loc segs st st' hs
    simp only [hb.ctor] at h1
    generalize node env root j items fields t exc (env.ctor t) loc segs st = r at h1 ⊢
    generalize node env root j items fields t exc (env.ctor t) loc segs st' = r' at h1 ⊢
    cases h1 with
    | ub => exact .ub
    | threw => exact .threw _ _
    | done ok a st1 st1' hs1 =>
      cases ok with
      | false => exact .done _ _ _ _ hs1
      | true => exact .done true (Val.uptr a) _ _ hs1
  | .sptr t => by
    intro exc _ target loc segs st st' hs
    simp only [node]
    cases refMember j with
    | some r => exact readRef_moved env f root t r target st st' hs
    | none =>
      have hs0 : DState.Moved f { st with next := st.next + 1 } { st' with next := st'.next + 1 } :=
        ⟨hs.refs, fun k => by have := hs.next (1 + k); simp only [← Nat.add_assoc] at this; exact this⟩
      have h0 : st'.next = f st.next := (hs.next 0).symm
      have h1 := node_moved t exc t (env.ctor t) loc segs _ _ hs0
      simp only [hb.ctor] at h1
      simp only
      generalize node env root j items fields t exc (env.ctor t) loc segs { st with next := st.next + 1 } = r at h1 ⊢
      generalize node env root j items fields t exc (env.ctor t) loc segs { st' with next := st'.next + 1 } = r' at h1 ⊢
      cases h1 with
      | ub => exact .ub
      | threw => exact .threw _ _
      | done ok a st1 st1' hs1 =>
        simp only [h0]
        cases ok with
        | false => exact .done false (Val.sptr st.next a) _ _ hs1
        | true => exact .done true (Val.sptr st.next a) _ _ (moved_dput hs1 loc st.next t a)

theorem alternatives_moved : ∀ (ts : List Ty) i loc segs st st', DState.Moved f st st' →
    DRes.Moved f (rename f) (alternatives env root j items fields ts i loc segs st) (alternatives env root j items fields ts i loc segs st')
  | [], i, loc, segs, st, st', hs => by
    simp only [alternatives]
    exact .done false Val.nullptr _ _ hs
  | t :: ts, i, loc, segs, st, st', hs => by
    simp only [alternatives]
    have h1 := node_moved t false t (env.fresh t) loc segs st st' hs
    simp only [hb.fresh] at h1
    generalize node env root j items fields t false (env.fresh t) loc segs st = r at h1 ⊢
    generalize node env root j items fields t false (env.fresh t) loc segs st' = r' at h1 ⊢
    cases h1 with
    | ub => exact .ub
    | threw => exact .threw _ _
    | done ok a st1 st1' hs1 =>
      cases ok with
      | false => exact alternatives_moved ts (i + 1) loc segs st1 st1' hs1
      | true => exact .done true (Val.alt i a) _ _ hs1
end
end

include hb in
theorem deser_moved (j : Json) : FnMoved f (deser env root j) := by
  refine Json.rec (motive_1 := fun j => FnMoved f (deser env root j)) (motive_2 := fun js => ∀ fn ∈ deserItems env root js, FnMoved f fn)
    (motive_3 := fun ms => ∀ p ∈ deserFields env root ms, FnMoved f p.2) (motive_4 := fun p => FnMoved f (deser env root p.2)) ?_ ?_ ?_ ?_ ?_ ?_ ?_ ?_ ?_ ?_ ?_ j
  · intro exc t; exact node_moved env f hb root .null [] [] (by simp) (by simp) t exc t
  · intro b exc t; exact node_moved env f hb root (.bool b) [] [] (by simp) (by simp) t exc t
  · intro n exc t; exact node_moved env f hb root (.num n) [] [] (by simp) (by simp) t exc t
  · intro s exc t; exact node_moved env f hb root (.str s) [] [] (by simp) (by simp) t exc t
  · intro js h exc t; exact node_moved env f hb root (.arr js) _ [] h (by simp) t exc t
  · intro ms h exc t; exact node_moved env f hb root (.obj ms) [] _ (by simp) h t exc t
  · intro fn h; simp [deserItems] at h
  · intro j js h1 h2 fn h
    simp only [deserItems, List.mem_cons] at h
    rcases h with rfl | h
    · exact h1
    · exact h2 fn h
  · intro p h; simp [deserFields] at h
  · rintro ⟨k, j⟩ ms h1 h2 p h
    simp only [deserFields, List.mem_cons] at h
    rcases h with rfl | h
    · exact h1
    · exact h2 p h
  · exact fun _ _ h => h

end

/-! ## Parsing -/

/-- The same outcome with other addresses. -/
inductive Means.Moved {α : Type} (f : Nat → Nat) (g : α → α) : Means α → Means α → Prop
  | ub : Means.Moved f g .ub .ub
  | no : Means.Moved f g .no .no
  | yes (a : α) (n n' : Nat) (h : ∀ k, f (n + k) = n' + k) : Means.Moved f g (.yes a n) (.yes (g a) n')

theorem Means.Moved.map {α β : Type} {f : Nat → Nat} {g : α → α} {h : β → β} {r r' : Means α} (hr : Means.Moved f g r r') {k k' : α → β}
    (hk : ∀ a, k' (g a) = h (k a)) : Means.Moved f h (r.map k) (r'.map k') := by
  cases hr with
  | ub => exact .ub
  | no => exact .no
  | yes a n n' hn => simp only [Means.map, hk]; exact .yes _ _ _ hn

theorem Means.Moved.bind {α β : Type} {f : Nat → Nat} {g : α → α} {h : β → β} {r r' : Means α} (hr : Means.Moved f g r r') {k k' : α → Nat → Means β}
    (hk : ∀ a n n', (∀ i, f (n + i) = n' + i) → Means.Moved f h (k a n) (k' (g a) n')) : Means.Moved f h (r.bind k) (r'.bind k') := by
  cases hr with
  | ub => exact .ub
  | no => exact .no
  | yes a n n' hn => exact hk a n n' hn

section
variable (env : Env) (f : Nat → Nat) (hb : env.Blind f)

/-- What is to be shown for the meaning of one node. -/
def MFnMoved (fn : MFn) : Prop := ∀ t target n n', (∀ i, f (n + i) = n' + i) → Means.Moved f (rename f) (fn t target n) (fn t (rename f target) n')

include hb in
theorem manyM_moved (t : Ty) (fs : List MFn) (h : ∀ fn ∈ fs, MFnMoved f fn) : ∀ n n', (∀ i, f (n + i) = n' + i) →
    Means.Moved f (List.map (rename f)) (manyM env t fs n) (manyM env t fs n') := by
  induction fs with
  | nil => intro n n' hn; exact .yes [] _ _ hn
  | cons fn fs ih =>
    intro n n' hn
    have h1 := h fn (by simp) t (env.ctor t) n n' hn
    rw [hb.ctor] at h1
    exact h1.bind fun v n1 n1' hn1 => (ih (fun fn hfn => h fn (by simp [hfn])) n1 n1' hn1).map fun _ => rfl

include hb in
theorem eachM_moved (fs : List MFn) (h : ∀ fn ∈ fs, MFnMoved f fn) : ∀ ts targets n n', (∀ i, f (n + i) = n' + i) →
    Means.Moved f (List.map (rename f)) (eachM env fs ts targets n) (eachM env fs ts (targets.map (rename f)) n') := by
  induction fs with
  | nil =>
    intro ts targets n n' hn
    cases ts with
    | nil => exact .yes [] _ _ hn
    | cons => exact .no
  | cons fn fs ih =>
    intro ts targets n n' hn
    cases ts with
    | nil => exact .no
    | cons t ts =>
      have h1 := h fn (by simp) t (targets.headD (env.ctor t)) n n' hn
      rw [← headD_rename f targets _ (hb.ctor t)] at h1
      refine h1.bind fun v n1 n1' hn1 => ?_
      have h2 := ih (fun fn hfn => h fn (by simp [hfn])) ts targets.tail n1 n1' hn1
      rw [List.map_tail] at h2
      exact h2.map fun _ => rfl

theorem lookup_rename (k : Str) (kvs : List (Str × Val)) : (kvs.map fun p => (p.1, rename f p.2)).lookup k = (kvs.lookup k).map (rename f) := by
  induction kvs with
  | nil => rfl
  | cons p kvs ih =>
    obtain ⟨k', v⟩ := p
    simp only [List.map_cons, List.lookup_cons]
    cases k == k'
    · exact ih
    · rfl

include hb in
theorem entriesM_moved (t : Ty) (fs : List (Str × MFn)) (h : ∀ p ∈ fs, MFnMoved f p.2) : ∀ kvs n n', (∀ i, f (n + i) = n' + i) →
    Means.Moved f (List.map fun p => (p.1, rename f p.2)) (entriesM env t fs kvs n) (entriesM env t fs (kvs.map fun p => (p.1, rename f p.2)) n') := by
  induction fs with
  | nil => intro kvs n n' hn; exact .yes _ _ _ hn
  | cons p fs ih =>
    obtain ⟨k, fn⟩ := p
    intro kvs n n' hn
    have h0 : ((kvs.map fun p => (p.1, rename f p.2)).lookup k).getD (env.ctor t) = rename f ((kvs.lookup k).getD (env.ctor t)) := by
      rw [lookup_rename]
      cases kvs.lookup k with
      | none => exact (hb.ctor t).symm
      | some v => rfl
    have h1 := h (k, fn) (by simp) t ((kvs.lookup k).getD (env.ctor t)) n n' hn
    rw [← h0] at h1
    refine h1.bind fun v n1 n1' hn1 => ?_
    have h2 := ih (fun fn hfn => h fn (by simp [hfn])) (mapAssign k v kvs) n1 n1' hn1
    rw [← mapAssign_rename] at h2
    exact h2

theorem getD_rename (vs : List Val) (i : Nat) (v : Val) (hv : rename f v = v) : (vs.map (rename f)).getD i v = rename f (vs.getD i v) := by
  simp only [List.getD_eq_getElem?_getD, List.getElem?_map]
  cases vs[i]? with
  | none => exact hv.symm
  | some w => rfl

include hb in
theorem membersM_moved (ms : List Member) (fs : List (Str × MFn)) (h : ∀ p ∈ fs, MFnMoved f p.2) : ∀ vs n n', (∀ i, f (n + i) = n' + i) →
    Means.Moved f (List.map (rename f)) (membersM env ms fs vs n) (membersM env ms fs (vs.map (rename f)) n') := by
  induction fs with
  | nil => intro vs n n' hn; exact .yes _ _ _ hn
  | cons p fs ih =>
    obtain ⟨k, fn⟩ := p
    intro vs n n' hn
    have ih := ih (fun fn hfn => h fn (by simp [hfn]))
    simp only [membersM]
    cases memberAt ms k with
    | none => exact .no
    | some i =>
      cases hm : ms[i]? with
      | none => simp only [hm]; exact .no
      | some m =>
        simp only [hm]
        split
        · have h1 := h (k, fn) (by simp) m.ty (env.ctor m.ty) n n' hn
          rw [hb.ctor] at h1
          refine h1.bind fun v n1 n1' hn1 => ?_
          have h2 := ih (vs.set i (.present v)) n1 n1' hn1
          rw [List.map_set] at h2
          exact h2
        · have h1 := h (k, fn) (by simp) m.ty (vs.getD i (env.ctor m.ty)) n n' hn
          rw [← getD_rename f vs i _ (hb.ctor m.ty)] at h1
          refine h1.bind fun v n1 n1' hn1 => ?_
          have h2 := ih (vs.set i v) n1 n1' hn1
          rw [List.map_set] at h2
          exact h2

include hb in
theorem fitMembers_rename (ms : List Member) : ∀ vs : List Val, fitMembers env ms (vs.map (rename f)) = (fitMembers env ms vs).map (rename f) := by
  induction ms with
  | nil => intro vs; rfl
  | cons m ms ih =>
    intro vs
    simp only [fitMembers, List.map_cons, ← List.map_tail, ih]
    rw [headD_rename f vs _ (by split <;> first | rfl | exact hb.ctor _)]

theorem elements_rename (v : Val) : (rename f v).elements = v.elements.map (rename f) := by
  cases v <;> simp [rename, Val.elements, renameAll_eq]

theorem entries_rename (v : Val) : (rename f v).entries = v.entries.map fun p => (p.1, rename f p.2) := by
  cases v <;> simp [rename, Val.entries, renameVals_eq]

include hb in
theorem nodeM_moved (j : Json) (items : List MFn) (fields : List (Str × MFn)) (hi : ∀ fn ∈ items, MFnMoved f fn) (hm : ∀ p ∈ fields, MFnMoved f p.2) :
    ∀ t : Ty, MFnMoved f fun _ => nodeM env j items fields t
  | .prim p => by
    intro _ target n n' hn
    simp only [nodeM]
    cases leafMeaning env p j with
    | ub => exact .ub
    | fail => exact .no
    | ok pv => exact .yes (Val.prim pv) _ _ hn
  | .vec t => by
    intro _ target n n' hn
    cases j with
    | arr js =>
      simp only [nodeM, elements_rename]
      exact (manyM_moved env f hb t items hi n n' hn).map fun vs => by simp [rename, renameAll_eq]
    | _ => exact .no
  | .arr k t => by
    intro _ target n n' hn
    cases j with
    | arr js =>
      simp only [nodeM, components_rename]
      exact (eachM_moved env f hb items hi _ target.components n n' hn).map fun vs => by simp [rename, renameAll_eq]
    | _ => exact .no
  | .set t => by
    intro _ target n n' hn
    cases j with
    | arr js =>
      simp only [nodeM, elements_rename]
      exact (manyM_moved env f hb t items hi n n' hn).map fun vs => by simp only [rename, renameAll_eq, setFold_rename f env.less hb.less]
    | _ => exact .no
  | .map o t => by
    intro _ target n n' hn
    cases j with
    | obj ms =>
      simp only [nodeM, entries_rename]
      exact (entriesM_moved env f hb t fields hm target.entries n n' hn).map fun vs => by simp [rename, renameVals_eq]
    | _ => exact .no
  | .dict t => by
    intro _ target n n' hn
    cases j with
    | arr js =>
      simp only [nodeM, entries_rename]
      exact (manyM_moved env f hb _ items hi n n' hn).map fun vs => by simp [rename, renameVals_eq, dictEntry_rename]
    | _ => exact .no
  | .tuple ts => by
    intro _ target n n' hn
    cases j with
    | arr js =>
      simp only [nodeM, components_rename]
      exact (eachM_moved env f hb items hi _ target.components n n' hn).map fun vs => by simp [rename, renameAll_eq]
    | _ => exact .no
  | .variant _ => fun _ _ _ _ _ => .no
  | .cls c => by
    intro _ target n n' hn
    cases j with
    | obj ms =>
      simp only [nodeM, members_rename, fitMembers_rename env f hb]
      exact (membersM_moved env f hb (env.members c) fields hm _ n n' hn).map fun vs => by simp [rename, renameAll_eq]
    | _ => exact .no
  | .uptr t => by
    intro _ target n n' hn
    have h1 := nodeM_moved j items fields hi hm t t (env.ctor t) n n' hn
    simp only [hb.ctor] at h1
    simp only [nodeM]
    exact h1.map fun _ => rfl
  | .sptr t => by
    intro _ target n n' hn
    have h1 := nodeM_moved j items fields hi hm t t (env.ctor t) (n + 1) (n' + 1) (fun k => by
      have := hn (1 + k); simp only [← Nat.add_assoc] at this; exact this)
    simp only [hb.ctor] at h1
    have h0 : n' = f n := (hn 0).symm
    simp only [nodeM, h0] at h1 ⊢
    exact h1.map fun _ => rfl

include hb in
theorem meaning_moved (j : Json) : MFnMoved f (meaning env j) := by
  refine Json.rec (motive_1 := fun j => MFnMoved f (meaning env j)) (motive_2 := fun js => ∀ fn ∈ meaningItems env js, MFnMoved f fn)
    (motive_3 := fun ms => ∀ p ∈ meaningFields env ms, MFnMoved f p.2) (motive_4 := fun p => MFnMoved f (meaning env p.2)) ?_ ?_ ?_ ?_ ?_ ?_ ?_ ?_ ?_ ?_ ?_ j
  · intro t; exact nodeM_moved env f hb .null [] [] (by simp) (by simp) t t
  · intro b t; exact nodeM_moved env f hb (.bool b) [] [] (by simp) (by simp) t t
  · intro n t; exact nodeM_moved env f hb (.num n) [] [] (by simp) (by simp) t t
  · intro s t; exact nodeM_moved env f hb (.str s) [] [] (by simp) (by simp) t t
  · intro js h t; exact nodeM_moved env f hb (.arr js) _ [] h (by simp) t t
  · intro ms h t; exact nodeM_moved env f hb (.obj ms) [] _ (by simp) h t t
  · intro fn h; simp [meaningItems] at h
  · intro j js h1 h2 fn h
    simp only [meaningItems, List.mem_cons] at h
    rcases h with rfl | h
    · exact h1
    · exact h2 fn h
  · intro p h; simp [meaningFields] at h
  · rintro ⟨k, j⟩ ms h1 h2 p h
    simp only [meaningFields, List.mem_cons] at h
    rcases h with rfl | h
    · exact h1
    · exact h2 p h
  · exact fun _ _ h => h

end

end Verif.Core
