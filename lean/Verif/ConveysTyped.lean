import Verif.Conveys
import Verif.ReadTyped

/-!
# Values denoted by documents with references are object graphs of their type

There is a heap, that is one object for every address, such that the value that a document denotes (`Conveys`) has its type
with respect to this heap. Nodes of the document from which objects were read have different addresses.
-/

namespace Verif.Core
open Verif.Numeric Verif.EnumConv

/-! ## Specification -/

/-- `Whole` with respect to a heap. -/
def WholeIn (env : Env) (H : Heap) (fin back : Bool) (v : Val) (t : Ty) : Prop :=
  HasTy env H v t ∧ (fin = true → finite v = true) ∧ (back = true → Readable env v t)

/-- The variables that the readers create are ready. -/
def FurnishedAt (env : Env) (fin back : Bool) (T : Ty) (root : Json) : Prop :=
  ∀ t j loc, NodeAt env T root t j loc → Ready env fin back t (env.fresh t) ∧ Ready env fin back t (env.ctor t)

/-- No number of the document is too large for the floating-point type that it is read as. -/
def InReachAt (env : Env) (T : Ty) (root : Json) : Prop :=
  ∀ t n loc, NodeAt env T root (.prim (.flt t)) (.num n) loc → (n.getDouble.round t).isFinite = true

mutual
/-- What is read from the node as this type is not written as an object with a member `"$ref"`. -/
def Refless (env : Env) (j : Json) : Ty → Prop
  | .cls c => lit "$ref" ∉ (env.members c).map (·.name)
  | .map _ _ => lit "$ref" ∉ j.fields.map fun p => cstr p.1
  | .uptr t => Refless env j t
  | .variant ts => ReflessAll env j ts
  | .dict _ => False
  | _ => True

/-- `Refless` for all types of a list. -/
def ReflessAll (env : Env) (j : Json) : List Ty → Prop
  | [] => True
  | t :: ts => Refless env j t ∧ ReflessAll env j ts
end

/-- As `StableTop`; also, sets contain no shared objects, and a shared pointer does not point to a shared pointer or to what is
written with a member `"$ref"`. -/
def StableTopAt (env : Env) (t : Ty) (j : Json) : Prop :=
  match t with
  | .set t => Sharefree env t
  | .sptr t => t.topShared = false ∧ (refMember j = none → Refless env j t)
  | t => StableTop t

/-- This holds for the types of all nodes of the document. -/
def StableAt (env : Env) (T : Ty) (root : Json) : Prop := ∀ t j loc, NodeAt env T root t j loc → StableTopAt env t j

/-- The recorded objects are objects of the heap, at different addresses below `next`. -/
def HeapOf (env : Env) (fin back : Bool) (H : Heap) (st : DState) : Prop :=
  (∀ q a t v, st.get q = some (a, t, v) → WholeIn env H fin back (.sptr a v) (.sptr t)) ∧
  (∀ q q' a x x', st.get q = some (a, x) → st.get q' = some (a, x') → q = q') ∧
  ∀ a, st.next ≤ a → H a = none

/-! ## Heaps -/

/-- The second heap has the objects of the first. -/
def Heap.le (H H' : Heap) : Prop := ∀ a x, H a = some x → H' a = some x

theorem HasTy.mono {env : Env} {H H' : Heap} (h : H.le H') : ∀ (v : Val) (t : Ty), HasTy env H v t → HasTy env H' v t := by
  intro v
  induction v using Val.strong with
  | h v ih =>
    intro t ht
    have hall : ∀ (vs : List Val) (t : Ty), (∀ w ∈ vs, sizeOf w < sizeOf v) → AllTy env H vs t → AllTy env H' vs t := by
      intro vs t hlt ht
      rw [AllTy_iff] at ht ⊢
      exact fun w hw => ih w (hlt w hw) t (ht w hw)
    have heach : ∀ (vs : List Val) (ts : List Ty), (∀ w ∈ vs, sizeOf w < sizeOf v) → HasTys env H vs ts → HasTys env H' vs ts := by
      intro vs
      induction vs with
      | nil => intro ts _ ht; cases ts <;> exact ht
      | cons w vs ihs =>
        intro ts hlt ht
        cases ts with
        | nil => exact ht
        | cons t ts => exact ⟨ih w (hlt w (by simp)) t ht.1, ihs ts (fun w hw => hlt w (by simp [hw])) ht.2⟩
    have hmem : ∀ (vs : List Val) (ms : List Member), (∀ w ∈ vs, sizeOf w < sizeOf v) → MembersTy env H vs ms → MembersTy env H' vs ms := by
      intro vs
      induction vs with
      | nil => intro ms _ ht; cases ms <;> simp [MembersTy] at ht ⊢
      | cons w vs ihs =>
        intro ms hlt ht
        cases ms with
        | nil => simp [MembersTy] at ht
        | cons m ms =>
          rw [MembersTy.eq_def] at ht ⊢
          refine ⟨?_, ihs ms (fun w hw => hlt w (by simp [hw])) ht.2⟩
          have ht1 := ht.1
          have hw := hlt w (by simp)
          clear ht hlt ihs
          cases hk : m.kind with
          | optional =>
            rw [hk] at ht1
            cases w <;> first | exact ht1 | skip
            case present u => exact ih u (by simp at hw; omega) m.ty ht1
          | _ => rw [hk] at ht1; exact ih w hw m.ty ht1
    cases v with
    | prim p => cases t <;> exact ht
    | seq vs =>
      cases t <;> first | exact ht.elim | skip
      exact hall vs _ (fun w hw => by have := mem_size hw; simp; omega) ht
    | tup vs =>
      cases t <;> first | exact ht.elim | skip
      · exact ⟨ht.1, hall vs _ (fun w hw => by have := mem_size hw; simp; omega) ht.2⟩
      · exact heach vs _ (fun w hw => by have := mem_size hw; simp; omega) ht
    | set vs =>
      cases t <;> first | exact ht.elim | skip
      exact ⟨hall vs _ (fun w hw => by have := mem_size hw; simp; omega) ht.1, ht.2⟩
    | map kvs =>
      cases t <;> first | exact ht.elim | skip
      refine ⟨(ValsTy_iff ..).2 fun p hp => ih p.2 (by have := mem_size_kv hp; simp; omega) _ ((ValsTy_iff ..).1 ht.1 p hp), ht.2⟩
    | dict kvs =>
      cases t <;> first | exact ht.elim | skip
      exact (ValsTy_iff ..).2 fun p hp => ih p.2 (by have := mem_size_kv hp; simp; omega) _ ((ValsTy_iff ..).1 ht p hp)
    | alt i w =>
      cases t <;> first | exact ht.elim | skip
      obtain ⟨t, h1, h2⟩ := ht
      exact ⟨t, h1, ih w (by simp) t h2⟩
    | obj vs =>
      cases t <;> first | exact ht.elim | skip
      exact hmem vs _ (fun w hw => by have := mem_size hw; simp; omega) ht
    | uptr w =>
      cases t <;> first | exact ht.elim | skip
      exact ih w (by simp) _ ht
    | sptr a w =>
      cases t <;> first | exact ht.elim | skip
      exact ⟨h a _ ht.1, ih w (by simp) _ ht.2⟩
    | _ => cases t <;> exact ht

theorem WholeIn.mono {env : Env} {H H' : Heap} {fin back : Bool} {v : Val} {t : Ty} (h : WholeIn env H fin back v t) (hle : H.le H') :
    WholeIn env H' fin back v t := ⟨HasTy.mono hle v t h.1, h.2⟩

theorem Whole.into {env : Env} {fin back : Bool} {v : Val} {t : Ty} (H : Heap) (h : Whole env fin back v t) : WholeIn env H fin back v t :=
  ⟨HasTy.mono (fun _ _ h => by cases h) v t h.1, h.2⟩

theorem Heap.le_trans {H1 H2 H3 : Heap} (h : H1.le H2) (h' : H2.le H3) : H1.le H3 := fun a x hx => h' a x (h a x hx)

/-- What reading does to the heap: new objects at new addresses. -/
structure Grows (env : Env) (fin back : Bool) (H : Heap) (st : DState) (H' : Heap) (st' : DState) : Prop where
  next : st.next ≤ st'.next
  old : ∀ a, a < st.next → H' a = H a
  heap : HeapOf env fin back H' st'

theorem Grows.le {env : Env} {fin back : Bool} {H H' : Heap} {st st' : DState} (hs : HeapOf env fin back H st) (h : Grows env fin back H st H' st') : H.le H' := by
  intro a x hx
  by_cases ha : a < st.next
  · rw [h.old a ha, hx]
  · rw [hs.2.2 a (by omega)] at hx
    cases hx

theorem Grows.trans {env : Env} {fin back : Bool} {H1 H2 H3 : Heap} {st1 st2 st3 : DState} (h : Grows env fin back H1 st1 H2 st2)
    (h' : Grows env fin back H2 st2 H3 st3) : Grows env fin back H1 st1 H3 st3 :=
  ⟨Nat.le_trans h.next h'.next, fun a ha => by rw [h'.old a (Nat.lt_of_lt_of_le ha h.next), h.old a ha], h'.heap⟩

theorem Grows.refl {env : Env} {fin back : Bool} {H : Heap} {st : DState} (h : HeapOf env fin back H st) : Grows env fin back H st H st :=
  ⟨Nat.le_refl _, fun _ _ => rfl, h⟩

theorem HeapOf.skip {env : Env} {fin back : Bool} {H : Heap} {st : DState} (h : HeapOf env fin back H st) (n : Nat) :
    HeapOf env fin back H { st with next := st.next + n } :=
  ⟨h.1, h.2.1, fun a ha => h.2.2 a (by simp at ha; omega)⟩

theorem DState.get_put (st : DState) (loc q : Loc) (e : Nat × Ty × Val) (x : Nat × Ty × Val) (h : (st.put loc e).get q = some x) :
    st.get q = some x ∨ (q = loc ∧ x = e) := by
  unfold DState.put at h
  cases hl : st.refs.lookup loc with
  | some y => rw [hl] at h; exact .inl h
  | none =>
    rw [hl] at h
    simp only [DState.get, List.lookup_cons] at h ⊢
    by_cases hq : q = loc
    · subst hq
      simp at h
      exact .inr ⟨rfl, h.symm⟩
    · rw [show (q == loc) = false by simpa using hq] at h
      exact .inl h

theorem DState.put_next (st : DState) (loc : Loc) (e : Nat × Ty × Val) : (st.put loc e).next = st.next := by
  unfold DState.put
  cases st.refs.lookup loc <;> rfl

/-! ## Top-level keys -/

theorem reflessAll_iff (env : Env) (j : Json) (ts : List Ty) : ReflessAll env j ts ↔ ∀ t ∈ ts, Refless env j t := by
  induction ts with
  | nil => simp [ReflessAll]
  | cons t ts ih => simp [ReflessAll, ih]

theorem conveysEntries_keys {env : Env} {root : Json} {t : Ty} {ms : List (Str × Json)} : ∀ {k : Nat} {loc : Loc} {st : DState} {kvs : List (Str × Val)} {st' : DState},
    ConveysEntries env root t k loc ms st kvs st' → kvs.map (·.1) = ms.map fun p => cstr p.1 := by
  induction ms with
  | nil => intro k loc st kvs st' h; cases h; rfl
  | cons p ms ih =>
    intro k loc st kvs st' h
    cases h with
    | cons _ _ _ key j _ _ v st1 kvs _ _ h2 => simp [ih h2]

theorem refless_keys (env : Env) (root j : Json) : ∀ (t : Ty) (loc : Loc) (target : Val) (st : DState) (v : Val) (st' : DState), Refless env j t →
    Conveys env root t loc j target st v st' → lit "$ref" ∉ topKeys env v t := by
  intro t
  refine Ty.rec (motive_1 := fun t => ∀ (loc : Loc) (target : Val) (st : DState) (v : Val) (st' : DState), Refless env j t →
    Conveys env root t loc j target st v st' → lit "$ref" ∉ topKeys env v t)
    (motive_2 := fun ts => ∀ t ∈ ts, ∀ (loc : Loc) (target : Val) (st : DState) (v : Val) (st' : DState), Refless env j t →
    Conveys env root t loc j target st v st' → lit "$ref" ∉ topKeys env v t) ?_ ?_ ?_ ?_ ?_ ?_ ?_ ?_ ?_ ?_ ?_ ?_ ?_ t
  · intro p loc target st v st' _ h; cases h; simp [topKeys]
  · intro t _ loc target st v st' _ h; cases h; simp [topKeys]
  · intro n t _ loc target st v st' _ h; cases h; simp [topKeys]
  · intro t _ loc target st v st' _ h; cases h; simp [topKeys]
  · intro o t _ loc target st v st' hr h
    cases h with
    | map _ _ _ ms _ _ kvs _ h =>
      simp only [topKeys]
      intro hm
      obtain ⟨p, hp, hk⟩ := List.mem_map.1 hm
      have := List.mem_map_of_mem (f := (·.1)) (mapOf_mem kvs p hp)
      rw [conveysEntries_keys h, hk] at this
      exact hr this
  · intro t _ loc target st v st' hr h; exact hr.elim
  · intro ts _ loc target st v st' _ h; cases h; simp [topKeys]
  · intro ts ih loc target st v st' hr h
    cases h with
    | variant _ _ _ _ _ i t v _ h1 _ h3 =>
      have hm := List.mem_of_getElem? h1
      simp only [topKeys, h1]
      exact ih t hm _ _ _ _ _ ((reflessAll_iff env j ts).1 hr t hm) h3
  · intro c loc target st v st' hr h; cases h; exact hr
  · intro t ih loc target st v st' hr h
    cases h with
    | uptr _ _ _ _ _ v _ h => exact ih _ _ _ _ _ hr h
  · intro t _ loc target st v st' _ h; cases h <;> simp [topKeys]
  · intro t h; cases h
  · intro t ts ih1 ih2 t' ht'
    rcases List.mem_cons.1 ht' with rfl | ht'
    · exact ih1
    · exact ih2 t' ht'

/-! ## All documents -/

theorem WholeIn.all {env : Env} {H : Heap} {fin back : Bool} {vs : List Val} {t : Ty} (h : ∀ v ∈ vs, WholeIn env H fin back v t) :
    AllTy env H vs t ∧ (fin = true → finiteAll vs = true) ∧ (back = true → ReadableAll env vs t) := by
  induction vs with
  | nil => exact ⟨trivial, fun _ => rfl, fun _ => trivial⟩
  | cons v vs ih =>
    obtain ⟨h1, h2, h3⟩ := ih fun w hw => h w (by simp [hw])
    obtain ⟨k1, k2, k3⟩ := h v (by simp)
    exact ⟨⟨k1, h1⟩, fun hf => by simp [finiteAll, k2 hf, h2 hf], fun hb => ⟨k3 hb, h3 hb⟩⟩

theorem WholeIn.vals {env : Env} {H : Heap} {fin back : Bool} {kvs : List (Str × Val)} {t : Ty} (h : ∀ p ∈ kvs, 0 ∉ p.1 ∧ WholeIn env H fin back p.2 t) :
    ValsTy env H kvs t ∧ (fin = true → finiteVals kvs = true) ∧ (back = true → ReadableVals env kvs t) := by
  induction kvs with
  | nil => exact ⟨trivial, fun _ => rfl, fun _ => trivial⟩
  | cons p kvs ih =>
    obtain ⟨k, v⟩ := p
    obtain ⟨h1, h2, h3⟩ := ih fun w hw => h w (by simp [hw])
    obtain ⟨k0, k1, k2, k3⟩ := h (k, v) (by simp)
    exact ⟨⟨k1, h1⟩, fun hf => by simp [finiteVals, k2 hf, h2 hf], fun hb => ⟨⟨k0, k3 hb⟩, h3 hb⟩⟩

/-- A value of a type without shared pointers has no addresses. -/
theorem sharefree_noaddr (env : Env) (H : Heap) : ∀ (v : Val) (t : Ty), Sharefree env t → HasTy env H v t → addrs v = [] := by
  intro v
  induction v using Val.strong with
  | h v ih =>
    intro t hs ht
    have hall : ∀ (vs : List Val) (t : Ty), (∀ w ∈ vs, sizeOf w < sizeOf v) → Sharefree env t → AllTy env H vs t → addrsAll vs = [] := by
      intro vs t hlt hs ht
      induction vs with
      | nil => rfl
      | cons w vs ihs => simp [addrsAll, ih w (hlt w (by simp)) t hs ht.1, ihs (fun w hw => hlt w (by simp [hw])) ht.2]
    have heach : ∀ (vs : List Val) (ts : List Ty), (∀ w ∈ vs, sizeOf w < sizeOf v) → (∀ t ∈ ts, Sharefree env t) → HasTys env H vs ts → addrsAll vs = [] := by
      intro vs
      induction vs with
      | nil => intro ts _ _ _; rfl
      | cons w vs ihs =>
        intro ts hlt hs ht
        cases ts with
        | nil => exact ht.elim
        | cons t ts => simp [addrsAll, ih w (hlt w (by simp)) t (hs t (by simp)) ht.1, ihs ts (fun w hw => hlt w (by simp [hw])) (fun t ht => hs t (by simp [ht])) ht.2]
    have hvals : ∀ (kvs : List (Str × Val)) (t : Ty), (∀ p ∈ kvs, sizeOf p.2 < sizeOf v) → Sharefree env t → ValsTy env H kvs t → addrsVals kvs = [] := by
      intro kvs t hlt hs ht
      induction kvs with
      | nil => rfl
      | cons p kvs ihs =>
        obtain ⟨k, w⟩ := p
        simp [addrsVals, ih w (hlt (k, w) (by simp)) t hs ht.1, ihs (fun w hw => hlt w (by simp [hw])) ht.2]
    have hmem : ∀ (vs : List Val) (ms : List Member), (∀ w ∈ vs, sizeOf w < sizeOf v) → (∀ m ∈ ms, Sharefree env m.ty) → MembersTy env H vs ms → addrsAll vs = [] := by
      intro vs
      induction vs with
      | nil => intro ms _ _ _; rfl
      | cons w vs ihs =>
        intro ms hlt hs ht
        cases ms with
        | nil => simp [MembersTy] at ht
        | cons m ms =>
          rw [MembersTy.eq_def] at ht
          have ht1 := ht.1
          have hw := hlt w (by simp)
          have hrest := ihs ms (fun w hw => hlt w (by simp [hw])) (fun m hm => hs m (by simp [hm])) ht.2
          have hs1 := hs m (by simp)
          clear ht hlt ihs hs
          have : addrs w = [] := by
            cases hk : m.kind with
            | optional =>
              rw [hk] at ht1
              cases w <;> first | exact ht1.elim | rfl | skip
              case present u => exact ih u (by simp at hw; omega) m.ty hs1 ht1
            | _ => rw [hk] at ht1; exact ih w hw m.ty hs1 ht1
          simp [addrsAll, this, hrest]
    cases v with
    | seq vs =>
      cases t <;> first | exact ht.elim | skip
      exact hall vs _ (fun w hw => by have := mem_size hw; simp; omega) (hs.inner (.vec _)) ht
    | tup vs =>
      cases t <;> first | exact ht.elim | skip
      · exact hall vs _ (fun w hw => by have := mem_size hw; simp; omega) (hs.inner (.arr _ _)) ht.2
      · exact heach vs _ (fun w hw => by have := mem_size hw; simp; omega) (fun t h => hs.inner (.tuple _ t h)) ht
    | set vs =>
      cases t <;> first | exact ht.elim | skip
      exact hall vs _ (fun w hw => by have := mem_size hw; simp; omega) (hs.inner (.set _)) ht.1
    | map kvs =>
      cases t <;> first | exact ht.elim | skip
      exact hvals kvs _ (fun p hp => by have := mem_size_kv hp; simp; omega) (hs.inner (.map _ _)) ht.1
    | dict kvs =>
      cases t <;> first | exact ht.elim | skip
      exact hvals kvs _ (fun p hp => by have := mem_size_kv hp; simp; omega) ((hs.inner (.dict _)).inner (.tuple _ _ (by simp))) ht
    | alt i w =>
      cases t <;> first | exact ht.elim | skip
      obtain ⟨t, h1, h2⟩ := ht
      exact ih w (by simp) t (hs.inner (.variant _ t (List.mem_of_getElem? h1))) h2
    | obj vs =>
      cases t <;> first | exact ht.elim | skip
      exact hmem vs _ (fun w hw => by have := mem_size hw; simp; omega) (fun m hm => hs.inner (.cls _ m hm)) ht
    | uptr w =>
      cases t <;> first | exact ht.elim | skip
      exact ih w (by simp) _ (hs.inner (.uptr _)) ht
    | sptr a w =>
      cases t <;> first | exact ht.elim | skip
      exact absurd .self (hs _)
    | _ => cases t <;> first | rfl | exact ht.elim

theorem sharefree_noaddrs (env : Env) (H : Heap) (vs : List Val) (t : Ty) (hs : Sharefree env t) (h : AllTy env H vs t) : addrsAll vs = [] := by
  induction vs with
  | nil => rfl
  | cons v vs ih => simp [addrsAll, sharefree_noaddr env H v t hs h.1, ih h.2]

/-- What is to be shown of a node. -/
def Fills (env : Env) (root : Json) (fin back : Bool) (j : Json) (t : Ty) (loc : Loc) : Prop :=
  ∀ target st v st' H, HeapOf env fin back H st → Ready env fin back t target → Conveys env root t loc j target st v st' →
    ∃ H', Grows env fin back H st H' st' ∧ WholeIn env H' fin back v t

theorem fills_all (env : Env) (root : Json) (fin back : Bool) (t : Ty) (hr : Ready env fin back t (env.fresh t)) (js : List Json) (loc : Loc) : ∀ (k : Nat),
    (∀ (i : Nat) (j : Json), js[i]? = some j → Fills env root fin back j t ((k + i) :: loc)) → ∀ st vs st' H, HeapOf env fin back H st →
    ConveysAll env root t k loc js st vs st' → ∃ H', Grows env fin back H st H' st' ∧ vs.length = js.length ∧ ∀ v ∈ vs, WholeIn env H' fin back v t := by
  induction js with
  | nil =>
    intro k _ st vs st' H hh h
    cases h
    exact ⟨H, .refl hh, rfl, by simp⟩
  | cons j js ih =>
    intro k hj st vs st' H hh h
    cases h with
    | cons _ _ _ _ _ _ v st1 vs _ h1 h2 =>
      obtain ⟨H1, g1, w1⟩ := hj 0 j rfl _ st v st1 H hh hr h1
      obtain ⟨H2, g2, l2, w2⟩ := ih (k + 1) (fun i j hi => by have := hj (i + 1) j hi; rwa [show k + (i + 1) = k + 1 + i by omega] at this) st1 vs st' H1 g1.heap h2
      exact ⟨H2, g1.trans g2, by simp [l2], List.forall_mem_cons.2 ⟨w1.mono (g2.le g1.heap), w2⟩⟩

theorem fills_entries (env : Env) (root : Json) (fin back : Bool) (t : Ty) (hr : Ready env fin back t (env.fresh t)) (ms : List (Str × Json)) (loc : Loc) : ∀ (k : Nat),
    (∀ (i : Nat) (p : Str × Json), ms[i]? = some p → Fills env root fin back p.2 t ((k + i) :: loc)) → ∀ st kvs st' H, HeapOf env fin back H st →
    ConveysEntries env root t k loc ms st kvs st' → ∃ H', Grows env fin back H st H' st' ∧ ∀ p ∈ kvs, 0 ∉ p.1 ∧ WholeIn env H' fin back p.2 t := by
  induction ms with
  | nil =>
    intro k _ st vs st' H hh h
    cases h
    exact ⟨H, .refl hh, by simp⟩
  | cons p ms ih =>
    intro k hj st vs st' H hh h
    cases h with
    | cons _ _ _ key j _ _ v st1 vs _ h1 h2 =>
      obtain ⟨H1, g1, w1⟩ := hj 0 (key, j) rfl _ st v st1 H hh hr h1
      obtain ⟨H2, g2, w2⟩ := ih (k + 1) (fun i j hi => by have := hj (i + 1) j hi; rwa [show k + (i + 1) = k + 1 + i by omega] at this) st1 vs st' H1 g1.heap h2
      exact ⟨H2, g1.trans g2, List.forall_mem_cons.2 ⟨⟨cstr_nonul key, w1.mono (g2.le g1.heap)⟩, w2⟩⟩

theorem fills_each (env : Env) (root : Json) (fin back : Bool) (loc : Loc) (js : List Json) : ∀ (ts : List Ty) (k : Nat),
    (∀ (i : Nat) (t : Ty) (j : Json), ts[i]? = some t → js[i]? = some j → Fills env root fin back j t ((k + i) :: loc)) → ∀ targets st vs st' H,
    HeapOf env fin back H st → ReadyEach env fin back ts targets → ConveysEach env root ts k loc js targets st vs st' →
    ∃ H', Grows env fin back H st H' st' ∧ HasTys env H' vs ts ∧ (fin = true → finiteAll vs = true) ∧ (back = true → Readables env vs ts) := by
  induction js with
  | nil =>
    intro ts k _ targets st vs st' H hh _ h
    cases h
    exact ⟨H, .refl hh, trivial, fun _ => rfl, fun _ => trivial⟩
  | cons j js ih =>
    intro ts k hj targets st vs st' H hh hr h
    cases h with
    | cons t ts _ _ _ _ _ _ v st1 vs _ h1 h2 =>
      cases hr with
      | cons _ _ _ hr1 hr2 =>
        obtain ⟨H1, g1, w1⟩ := hj 0 t j rfl rfl _ st v st1 H hh hr1 h1
        obtain ⟨H2, g2, l1, l2, l3⟩ := ih ts (k + 1) (fun i t j hi hi' => by have := hj (i + 1) t j hi hi'; rwa [show k + (i + 1) = k + 1 + i by omega] at this)
          _ st1 vs st' H1 g1.heap hr2 h2
        obtain ⟨k1, k2, k3⟩ := w1.mono (g2.le g1.heap)
        exact ⟨H2, g1.trans g2, ⟨k1, l1⟩, fun hf => by simp [finiteAll, k2 hf, l2 hf], fun hb => ⟨k3 hb, l3 hb⟩⟩

theorem fills_members (env : Env) (root : Json) (fin back : Bool) (loc : Loc) (fields : List (Str × Json)) (ms : List Member) :
    (∀ m ∈ ms, ∀ i j, findMember m.name fields = some (i, j) → Ready env fin back m.ty (env.fresh m.ty) ∧ Fills env root fin back j m.ty (i :: loc)) →
    ∀ targets st vs st' H, HeapOf env fin back H st → ReadyMembers env fin back ms targets → ConveysMembers env root loc fields ms targets st vs st' →
    ∃ H', Grows env fin back H st H' st' ∧ MembersTy env H' vs ms ∧ (fin = true → finiteAll vs = true) ∧ (back = true → ReadableMembers env vs ms) := by
  induction ms with
  | nil =>
    intro _ targets st vs st' H hh _ h
    cases h
    exact ⟨H, .refl hh, trivial, fun _ => rfl, fun _ => trivial⟩
  | cons m ms ihs =>
    intro ih targets st vs st' H hh hr h
    have ihs := ihs fun m hm => ih m (List.mem_cons_of_mem _ hm)
    cases hr with
    | cons _ _ _ hr1 hr2 hr3 =>
      cases h with
      | present _ _ _ _ _ _ i j v st1 vs _ hf hk h1 h2 =>
        obtain ⟨H1, g1, w1⟩ := (ih m (by simp) i j hf).2 _ st v st1 H hh (hr1 hk) h1
        obtain ⟨H2, g2, l1, l2, l3⟩ := ihs _ st1 vs st' H1 g1.heap hr3 h2
        obtain ⟨k1, k2, k3⟩ := w1.mono (g2.le g1.heap)
        exact ⟨H2, g1.trans g2, membersTy_cons hk k1 l1, fun hf => by simp [finiteAll, k2 hf, l2 hf], fun hb => readableMembers_cons (k3 hb) (l3 hb)⟩
      | some _ _ _ _ _ _ i j v st1 vs _ hf hk h1 h2 =>
        obtain ⟨H1, g1, w1⟩ := (ih m (by simp) i j hf).2 _ st v st1 H hh (ih m (by simp) i j hf).1 h1
        obtain ⟨H2, g2, l1, l2, l3⟩ := ihs _ st1 vs st' H1 g1.heap hr3 h2
        obtain ⟨k1, k2, k3⟩ := w1.mono (g2.le g1.heap)
        exact ⟨H2, g1.trans g2, by rw [MembersTy.eq_def]; exact ⟨by simpa [hk] using k1, l1⟩, fun hf => by simp [finiteAll, finite, k2 hf, l2 hf],
          fun hb => by rw [ReadableMembers.eq_def]; exact ⟨k3 hb, l3 hb⟩⟩
      | none _ _ _ _ _ _ vs _ hf hk h2 =>
        obtain ⟨H2, g2, l1, l2, l3⟩ := ihs _ st vs st' H hh hr3 h2
        exact ⟨H2, g2, by rw [MembersTy.eq_def]; exact ⟨by simp [hk], l1⟩, fun hf => by simp [finiteAll, finite, l2 hf],
          fun hb => by rw [ReadableMembers.eq_def]; exact ⟨trivial, l3 hb⟩⟩
      | keep _ _ _ _ _ _ vs _ hf hk h2 =>
        obtain ⟨H2, g2, l1, l2, l3⟩ := ihs _ st vs st' H hh hr3 h2
        obtain ⟨k1, k2, k3⟩ := (hr2 hk).into H2
        exact ⟨H2, g2, membersTy_cons (by simp [hk]) k1 l1, fun hf => by simp only [finiteAll, k2 hf, l2 hf, Bool.and_self],
          fun hb => readableMembers_cons (k3 hb) (l3 hb)⟩

/-- **The value that a document denotes is an object graph.** -/
theorem conveys_whole (env : Env) (hl : StrictLess env.less) (hclk : 0 < env.clk) (fin back : Bool) (T : Ty) (root : Json)
    (hfur : FurnishedAt env fin back T root) (hreach : fin = true → InReachAt env T root) (hst : back = true → StableAt env T root) : ∀ (j : Json) (t : Ty),
    ∀ loc, NodeAt env T root t j loc → Fills env root fin back j t loc := by
  apply lexInd
  intro j t ihj iht loc hn target st v st' H hh hr hd
  have down : ∀ t' j' loc', ChildAt env t j loc t' j' loc' → Ready env fin back t' (env.fresh t') ∧ Ready env fin back t' (env.ctor t') :=
    fun t' j' loc' hc => hfur t' j' loc' (.child _ _ _ _ _ _ hn hc)
  cases hd with
  | prim p _ _ _ _ pv h =>
    refine ⟨H, .refl hh, Whole.into H (leaf_whole env hclk fin back p j pv h (fun hf ft n hp hj => ?_) (fun hb => hst hb _ _ _ hn))⟩
    subst hp; subst hj
    exact hreach hf ft n loc hn
  | vec t _ js _ _ vs _ h =>
    cases js with
    | nil => cases h; exact ⟨H, .refl hh, trivial, fun _ => rfl, fun _ => trivial⟩
    | cons j0 js0 =>
      obtain ⟨H', g, -, hs⟩ := fills_all env root fin back t (down t j0 (0 :: loc) (.vec t _ 0 j0 loc rfl)).1 _ loc 0 (fun i j hj => by
        rw [Nat.zero_add]
        exact ihj j (size_item (List.mem_of_getElem? hj)) t _ (.child _ _ _ _ _ _ hn (.vec t _ i j loc hj))) st vs st' H hh h
      exact ⟨H', g, WholeIn.all hs⟩
  | arr n t _ js _ _ vs _ hlen h =>
    cases js with
    | nil => cases h; exact ⟨H, .refl hh, ⟨hlen, trivial⟩, fun _ => rfl, fun _ => trivial⟩
    | cons j0 js0 =>
      obtain ⟨H', g, len, hs⟩ := fills_all env root fin back t (down t j0 (0 :: loc) (.arr n t _ 0 j0 loc rfl)).1 _ loc 0 (fun i j hj => by
        rw [Nat.zero_add]
        exact ihj j (size_item (List.mem_of_getElem? hj)) t _ (.child _ _ _ _ _ _ hn (.arr n t _ i j loc hj))) st vs st' H hh h
      obtain ⟨h1, h2, h3⟩ := WholeIn.all hs
      exact ⟨H', g, ⟨by rw [← hlen]; exact len, h1⟩, h2, h3⟩
  | set t _ js _ _ vs _ h =>
    cases js with
    | nil => cases h; exact ⟨H, .refl hh, ⟨trivial, .nil⟩, fun _ => rfl, fun _ => ⟨rfl, trivial⟩⟩
    | cons j0 js0 =>
      obtain ⟨H', g, -, hs⟩ := fills_all env root fin back t (down t j0 (0 :: loc) (.set t _ 0 j0 loc rfl)).1 _ loc 0 (fun i j hj => by
        rw [Nat.zero_add]
        exact ihj j (size_item (List.mem_of_getElem? hj)) t _ (.child _ _ _ _ _ _ hn (.set t _ i j loc hj))) st vs st' H hh h
      obtain ⟨f1, f2, -⟩ := setFold hl vs [] .nil
      obtain ⟨h1, h2, h3⟩ := WholeIn.all (vs := setOf env.less vs) fun v hv => hs v ((f2 v hv).resolve_right (by simp))
      exact ⟨H', g, ⟨h1, f1⟩, h2, fun hb => ⟨sharefree_noaddrs env H' _ t (hst hb _ _ _ hn) h1, h3 hb⟩⟩
  | map o t _ ms _ _ kvs _ h =>
    cases ms with
    | nil => cases h; exact ⟨H, .refl hh, ⟨trivial, (keysAsc_iff _).2 (mapOf_asc [])⟩, fun _ => rfl, fun _ => trivial⟩
    | cons p0 ms0 =>
      obtain ⟨H', g, hs⟩ := fills_entries env root fin back t (down t p0.2 (0 :: loc) (.map o t _ 0 p0 loc rfl)).1 _ loc 0 (fun i p hp => by
        rw [Nat.zero_add]
        exact ihj p.2 (size_field (List.mem_of_getElem? hp)) t _ (.child _ _ _ _ _ _ hn (.map o t _ i p loc hp))) st kvs st' H hh h
      obtain ⟨h1, h2, h3⟩ := WholeIn.vals (kvs := mapOf kvs) fun p hp => hs p (mapOf_mem kvs p hp)
      exact ⟨H', g, ⟨h1, (keysAsc_iff _).2 (mapOf_asc kvs)⟩, h2, h3⟩
  | dict t _ js _ _ vs _ h =>
    cases js with
    | nil => cases h; exact ⟨H, .refl hh, trivial, fun _ => rfl, fun hb => (hst hb _ _ _ hn).elim⟩
    | cons j0 js0 =>
      obtain ⟨H', g, -, hs⟩ := fills_all env root fin back _ (down _ j0 (0 :: loc) (.dict t _ 0 j0 loc rfl)).1 _ loc 0 (fun i j hj => by
        rw [Nat.zero_add]
        exact ihj j (size_item (List.mem_of_getElem? hj)) _ _ (.child _ _ _ _ _ _ hn (.dict t _ i j loc hj))) st vs st' H hh h
      refine ⟨H', g, ?_, fun hf => ?_, fun hb => (hst hb _ _ _ hn).elim⟩
      · show ValsTy env H' (vs.map dictEntry) t
        rw [ValsTy_iff]
        intro p hp
        obtain ⟨v, hv, rfl⟩ := List.mem_map.1 hp
        obtain ⟨k, w, rfl, hw⟩ := pair_typed (hs v hv).1
        exact hw
      · show finiteVals (vs.map dictEntry) = true
        rw [finiteVals_iff]
        intro p hp
        obtain ⟨v, hv, rfl⟩ := List.mem_map.1 hp
        obtain ⟨k, w, rfl, hw⟩ := pair_typed (hs v hv).1
        simpa [dictEntry, finite, finiteAll] using (hs _ hv).2.1 hf
  | tuple ts _ js _ _ vs _ h =>
    cases hr with
    | other _ _ h1 => exact absurd rfl (h1 ts)
    | tuple _ _ hr =>
      exact fills_each env root fin back loc js ts 0 (fun i t j ht hj => by
        rw [Nat.zero_add]
        exact ihj j (size_item (List.mem_of_getElem? hj)) t _ (.child _ _ _ _ _ _ hn (.tuple ts js i t j loc ht hj))) _ st vs st' H hh hr h
  | variant ts _ _ _ _ i t v _ hi hfail hd =>
    have hm := List.mem_of_getElem? hi
    have hc : ChildAt env (.variant ts) j loc t j loc := .variant ts j t loc hm
    obtain ⟨H', g, k1, k2, k3⟩ := iht t (size_alt hm) loc (.child _ _ _ _ _ _ hn hc) _ _ v st' H (hh.skip _) (down t j loc hc).1 hd
    refine ⟨H', ⟨?_, fun a ha => g.old a ?_, g.heap⟩, ⟨t, hi, k1⟩, k2, fun hb => ⟨t, hi, k3 hb, fun k t' hk ht' pos j' tr hs => ?_⟩⟩
    · have := g.next
      simp at this
      omega
    · simp
      omega
    · exact rejects_shape env t' j' (hst hb _ _ _ hn i k t t' hk hi ht' _ (shows_shape env v t pos j' tr hs))
  | cls c _ ms _ _ vs _ h =>
    cases hr with
    | other _ _ _ h1 => exact absurd rfl (h1 c)
    | cls _ _ hr =>
      exact fills_members env root fin back loc ms _ (fun m hm i j hf => by
        have hc : ChildAt env (.cls c) (.obj ms) loc m.ty j (i :: loc) := .cls c ms m i j loc hm hf
        exact ⟨(down _ _ _ hc).1, ihj j (size_field (findMember_mem hf)) m.ty _ (.child _ _ _ _ _ _ hn hc)⟩) _ st vs st' H hh hr h
  | uptr t _ _ _ _ v _ hd =>
    have hc : ChildAt env (.uptr t) j loc t j loc := .uptr t j loc
    exact iht t (by simp) loc (.child _ _ _ _ _ _ hn hc) _ st v st' H hh (down t j loc hc).2 hd
  | sptr t _ _ _ _ v st1 href hd =>
    have hc : ChildAt env (.sptr t) j loc t j loc := .sptr t j loc href
    obtain ⟨H1, g, k1, k2, k3⟩ := iht t (by simp) loc (.child _ _ _ _ _ _ hn hc) _ _ v st1 H (hh.skip 1) (down t j loc hc).2 hd
    have hnone : H1 st.next = none := by rw [g.old st.next (by simp)]; exact hh.2.2 _ (Nat.le_refl _)
    have hnext : st.next + 1 ≤ st1.next := g.next
    let H2 : Heap := fun a => if a = st.next then some (t, v) else H1 a
    have hle : H1.le H2 := by
      intro a x hx
      have : a ≠ st.next := by rintro rfl; rw [hnone] at hx; cases hx
      simp only [H2, if_neg this, hx]
    have hw : WholeIn env H2 fin back (.sptr st.next v) (.sptr t) := by
      refine ⟨⟨by simp [H2], HasTy.mono hle v t k1⟩, k2, fun hb => ?_⟩
      obtain ⟨s1, s2⟩ := hst hb _ _ _ hn
      exact ⟨s1, refless_keys env root j t loc _ _ v st1 (s2 href) hd, k3 hb⟩
    refine ⟨H2, ⟨?_, fun a ha => ?_, ?_, ?_, ?_⟩, hw⟩
    · rw [DState.put_next]
      omega
    · have : a ≠ st.next := by omega
      simp only [H2, if_neg this]
      exact g.old a (by simp; omega)
    · intro q a t' v' hq
      rcases DState.get_put _ _ _ _ _ hq with hq | ⟨rfl, hx⟩
      · exact (g.heap.1 q a t' v' hq).mono hle
      · cases hx
        exact hw
    · have fresh : ∀ q x, st1.get q = some (st.next, x) → False := by
        intro q x hx
        obtain ⟨t', v'⟩ := x
        have := (g.heap.1 q st.next t' v' hx).1.1
        rw [hnone] at this
        cases this
      intro q q' a x x' hq hq'
      rcases DState.get_put _ _ _ _ _ hq with hq | ⟨rfl, hx⟩
      · rcases DState.get_put _ _ _ _ _ hq' with hq' | ⟨rfl, hx'⟩
        · exact g.heap.2.1 q q' a x x' hq hq'
        · cases hx'
          rename_i hq0
          exact (fresh _ _ hq0).elim
      · cases hx
        rcases DState.get_put _ _ _ _ _ hq' with hq' | ⟨rfl, hx'⟩
        · exact (fresh _ _ hq').elim
        · rfl
    · intro a ha
      rw [DState.put_next] at ha
      have : a ≠ st.next := by omega
      simp only [H2, if_neg this]
      exact g.heap.2.2 a ha
  | ref t _ _ _ _ p toks q a v _ _ _ h3 => exact ⟨H, .refl hh, hh.1 _ a t v h3⟩

end Verif.Core
