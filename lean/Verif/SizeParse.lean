import Verif.Size
import Verif.ParseLeft
import Verif.UnshareOwn

/-!
# The size of what is parsed

`parse_size`: what the streaming parser stores is no larger than the text it has read so far (and what was in the variable
before). The proof follows the objects on the stack: `mass` counts each of them once, without the parts that are on
the stack themselves.
-/

namespace Verif.Core
open Verif.Numeric Verif.EnumConv Verif.PerfectHash

/-! ## Specification -/

/-- Size of a token: one for each value and each key, and the bytes of strings. -/
def Event.extent : Event → Nat
  | .null | .bool _ | .num _ | .startArr | .startObj => 1
  | .str s => 1 + s.length
  | .key k => 1 + k.length
  | .endArr | .endObj => 0

/-- Size of the tokens of a text. -/
def extents : List Event → Nat
  | [] => 0
  | e :: es => e.extent + extents es

theorem extents_append (es fs : List Event) : extents (es ++ fs) = extents es + extents fs := by
  induction es with
  | nil => simp [extents]
  | cons e es ih => simp only [List.cons_append, extents, ih]; omega

mutual
/-- The tokens of a document are as large as the document. -/
theorem extents_events : ∀ j, extents (events j) = j.extent
  | .null => rfl
  | .bool _ => rfl
  | .num _ => rfl
  | .str s => by simp [events, extents, Event.extent, Json.extent]
  | .arr js => by
    have := extents_items js
    simp only [events, extents, Event.extent, Json.extent, extents_append]
    omega
  | .obj ms => by
    have := extents_fields ms
    simp only [events, extents, Event.extent, Json.extent, extents_append]
    omega

theorem extents_items : ∀ js, extents (eventsItems js) = extentItems js
  | [] => rfl
  | j :: js => by
    have h1 := extents_events j
    have h2 := extents_items js
    simp only [eventsItems, extents_append, extentItems]
    omega

theorem extents_fields : ∀ ms, extents (eventsMembers ms) = extentFields ms
  | [] => rfl
  | (k, j) :: ms => by
    have h1 := extents_events j
    have h2 := extents_fields ms
    simp only [eventsMembers, extents, Event.extent, extents_append, extentFields]
    omega
end

/-! ## Empty values -/

theorem partsDyn_mem {vs : List Val} (h : partsDyn vs = 0) : ∀ v ∈ vs, v.dyn = 0 := by
  induction vs with
  | nil => simp
  | cons v vs ih =>
    simp only [partsDyn, Nat.add_eq_zero_iff] at h
    simpa [h.1] using ih h.2

theorem components_mem {v w : Val} {i : Nat} (h : v.components[i]? = some w) : sizeOf w < sizeOf v ∧ (v.dyn = 0 → w.dyn = 0) := by
  have h' := List.mem_of_getElem? h
  cases v with
  | tup vs => exact ⟨by have := mem_size h'; simp [Val.components] at *; omega, fun h0 => partsDyn_mem h0 w h'⟩
  | _ => simp [Val.components] at h'

theorem members_mem {v w : Val} {i : Nat} (h : v.members[i]? = some w) : sizeOf w < sizeOf v ∧ (v.dyn = 0 → w.dyn = 0) := by
  have h' := List.mem_of_getElem? h
  cases v with
  | obj vs => exact ⟨by have := mem_size h'; simp [Val.members] at *; omega, fun h0 => partsDyn_mem h0 w h'⟩
  | _ => simp [Val.members] at h'

theorem entries_empty {v : Val} (h : v.dyn = 0) : v.entries = [] := by
  have : ∀ kvs, entriesDyn kvs = 0 → kvs = [] := by
    intro kvs h
    cases kvs with
    | nil => rfl
    | cons p kvs => cases p; simp [entriesDyn] at h
  cases v <;> first | rfl | exact this _ h

theorem neat_of_empty (env : Env) (v : Val) : v.dyn = 0 → ∀ t, Neat env t v := by
  induction v using Val.strong with
  | h v ih =>
    intro h t
    cases t with
    | prim p => exact .prim _ _
    | vec t => exact .vec _ _
    | arr k t => exact .arr _ _ _ fun i w _ hw => ih w (components_mem hw).1 ((components_mem hw).2 h) t
    | set t => exact .set _ _
    | map o t =>
      refine .map _ _ _ ?_ ?_
      · rw [entries_empty h]; exact List.Pairwise.nil
      · rw [entries_empty h]; simp
    | dict t => exact .dict _ _
    | tuple ts => exact .tuple _ _ fun i t w _ hw => ih w (components_mem hw).1 ((components_mem hw).2 h) t
    | variant ts => exact .variant _ _
    | cls c => exact .cls _ _ fun i m w _ _ hw => ih w (members_mem hw).1 ((members_mem hw).2 h) m.ty
    | uptr t => exact .uptr _ _
    | sptr t => exact .sptr _ _

/-! ## Values and their parts -/

theorem partsDyn_set_le (vs : List Val) (v : Val) : ∀ k, partsDyn (vs.set k v) ≤ partsDyn (vs.set k .nullptr) + v.dyn := by
  induction vs with
  | nil => simp [partsDyn]
  | cons w vs ih =>
    intro k
    cases k with
    | zero => simp only [List.set_cons_zero, partsDyn, Val.dyn]; omega
    | succ k => have := ih k; simp only [List.set_cons_succ, partsDyn]; omega

theorem partsDyn_getD (vs : List Val) (d : Val) (hd : d.dyn = 0) : ∀ k, partsDyn (vs.set k .nullptr) + (vs.getD k d).dyn ≤ partsDyn vs := by
  induction vs with
  | nil => intro k; simp [partsDyn, hd]
  | cons w vs ih =>
    intro k
    cases k with
    | zero => simp only [List.set_cons_zero, List.getD_cons_zero, partsDyn, Val.dyn]; omega
    | succ k => have := ih k; simp only [List.set_cons_succ, List.getD_cons_succ, partsDyn]; omega

theorem partsDyn_hole_le (vs : List Val) : ∀ k, partsDyn (vs.set k .nullptr) ≤ partsDyn vs := fun k => by
  have := partsDyn_getD vs .nullptr rfl k
  omega

theorem entriesDyn_assign (k : Str) (v : Val) (kvs : List (Str × Val)) :
    entriesDyn (mapAssign k v kvs) = entriesDyn (mapAssign k .nullptr kvs) + v.dyn := by
  induction kvs with
  | nil => simp [mapAssign, entriesDyn, Val.dyn]
  | cons p kvs ih =>
    obtain ⟨k', v'⟩ := p
    simp only [mapAssign]
    split
    · simp only [entriesDyn, Val.dyn]; omega
    · split
      · simp only [entriesDyn, ih]; omega
      · simp only [entriesDyn, Val.dyn]; omega

theorem entriesDyn_lookup (k : Str) (d : Val) (hd : d.dyn = 0) (kvs : List (Str × Val)) (h : KeysAsc kvs) :
    entriesDyn (mapAssign k .nullptr kvs) + ((kvs.lookup k).getD d).dyn ≤ entriesDyn kvs + (1 + k.length) := by
  induction kvs with
  | nil => simp [mapAssign, entriesDyn, Val.dyn, hd]
  | cons p kvs ih =>
    obtain ⟨k', v'⟩ := p
    simp only [KeysAsc, List.pairwise_cons] at h
    have ih' := ih h.2
    simp only [mapAssign]
    split
    · rename_i hk
      subst hk
      simp only [List.lookup, beq_self_eq_true, Option.getD_some, entriesDyn, Val.dyn]
      omega
    · rename_i hk
      have hb : (k == k') = false := by simpa using fun h => hk h.symm
      simp only [List.lookup, hb]
      split
      · simp only [entriesDyn]; omega
      · rename_i hl
        have hnone : kvs.lookup k = none := by
          rw [List.lookup_eq_none_iff]
          intro q hq
          rw [bne_iff_ne]
          intro he
          exact hl (by rw [he]; exact h.1 q hq)
        rw [hnone]
        simp only [Option.getD_none, hd, entriesDyn, Val.dyn]
        omega

theorem elements_dyn (v : Val) : itemsDyn v.elements ≤ v.dyn := by
  cases v <;> simp [Val.elements, Val.dyn, itemsDyn]

theorem entries_dyn (v : Val) : entriesDyn v.entries ≤ v.dyn := by
  cases v <;> simp [Val.entries, Val.dyn, entriesDyn]

theorem fit_dyn (env : Env) (hs : env.Slim) (ts : List Ty) : ∀ vs, partsDyn (fit env ts vs) ≤ partsDyn vs := by
  induction ts with
  | nil => intro vs; simp [fit, partsDyn]
  | cons t ts ih =>
    intro vs
    have h1 := partsDyn_headD vs (env.ctor t) (hs.ctor t)
    have h2 := ih vs.tail
    simp only [fit, partsDyn]
    omega

theorem fitMembers_dyn (env : Env) (hs : env.Slim) (ms : List Member) : ∀ vs, partsDyn (fitMembers env ms vs) ≤ partsDyn vs := by
  induction ms with
  | nil => intro vs; simp [fitMembers, partsDyn]
  | cons m ms ih =>
    intro vs
    have h1 := partsDyn_headD vs (if m.kind = .optional then .absent else env.ctor m.ty) (by split <;> simp [Val.dyn, hs.ctor])
    have h2 := ih vs.tail
    simp only [fitMembers, partsDyn]
    omega

theorem pairs_dyn (kvs : List (Str × Val)) : itemsDyn (kvs.map pairOf) = entriesDyn kvs := by
  induction kvs with
  | nil => rfl
  | cons p kvs ih =>
    obtain ⟨k, v⟩ := p
    simp only [List.map_cons, itemsDyn, entriesDyn, pairOf, Val.dyn, partsDyn, PVal.dyn, ih]
    omega

/-! ## Frames -/

/-- The objects of a handler. -/
def Handler.dyn : Handler → Nat
  | .leaf _ v => v.dyn
  | .vecStart _ vs => itemsDyn vs
  | .vecItems _ vs => itemsDyn vs
  | .setStart _ vs => itemsDyn vs
  | .setItems _ storage vs => itemsDyn storage + itemsDyn vs
  | .fixStart _ _ vs => partsDyn vs
  | .fixItems _ _ _ vs => partsDyn vs
  | .mapStart _ _ kvs => entriesDyn kvs
  | .mapItems _ _ kvs => entriesDyn kvs
  | .objStart _ vs => partsDyn vs
  | .objItems _ vs => partsDyn vs
  | .unsupported v => v.dyn

/-- What the handler goes on from has its keys in order. -/
def Handler.Neat (env : Env) : Handler → Prop
  | .fixStart _ ts vs => NeatEach env ts vs
  | .fixItems _ ts _ vs => NeatEach env ts vs
  | .mapStart _ t kvs => NeatMap env t kvs
  | .mapItems _ t kvs => NeatMap env t kvs
  | .objStart c vs => NeatMembers env (env.members c) vs
  | .objItems c vs => NeatMembers env (env.members c) vs
  | _ => True

/-- The same for an object of the kind that the handler fills. -/
def Handler.Fills (env : Env) : Handler → Val → Prop
  | .fixStart _ ts _, v => NeatEach env ts v.components
  | .fixItems _ ts _ _, v => NeatEach env ts v.components
  | .mapStart _ t _, v => NeatMap env t v.entries
  | .mapItems _ t _, v => NeatMap env t v.entries
  | .objStart c _, v => NeatMembers env (env.members c) v.members
  | .objItems c _, v => NeatMembers env (env.members c) v.members
  | _, _ => True

/-- The same for a part of the object of the handler. -/
def Handler.Takes (env : Env) : Handler → Link → Val → Prop
  | .fixItems _ ts _ _, .nth k, v => ∀ t, ts[k]? = some t → Core.Neat env t v
  | .mapItems _ t _, .key _, v => Core.Neat env t v
  | .objItems c _, .member i, v => ∀ m, (env.members c)[i]? = some m → m.kind ≠ .optional → Core.Neat env m.ty v
  | _, _, _ => True

/-- The objects of a handler without the part that the frame above refers to. -/
def hole : Handler → Link → Nat
  | .vecItems _ vs, .item => itemsDyn vs + 1
  | .setItems _ storage vs, .item => itemsDyn storage + itemsDyn vs + 1
  | .fixItems _ _ _ vs, .nth k => partsDyn (vs.set k .nullptr)
  | .mapItems _ _ kvs, .key k => entriesDyn (mapAssign k .nullptr kvs)
  | .objItems _ vs, .member i => partsDyn (vs.set i .nullptr)
  | h, _ => h.dyn

/-- The same for all frames below. -/
def holes : Link → List Frame → Nat
  | _, [] => 0
  | l, p :: rest => hole p.handler l + holes p.link rest

/-- All objects of a state. -/
def PState.mass (s : PState) : Nat :=
  match s.stack with
  | [] => (s.finished.getD .nullptr).dyn
  | f :: rest => f.handler.dyn + holes f.link rest

/-- The stack: what handlers go on from is in order, what is made of the object of a frame is no larger than this object, and
fits into the object below. -/
def Chain (env : Env) : Frame → List Frame → Prop
  | f, [] => f.handler.Neat env ∧ ∀ v, (f.wrap v).dyn ≤ v.dyn
  | f, p :: rest => f.handler.Neat env ∧ (∀ v, (f.wrap v).dyn ≤ v.dyn) ∧
      (∀ v, f.handler.Fills env v → p.handler.Takes env f.link (f.wrap v)) ∧ Chain env p rest

/-- The same for a state. -/
def PState.Chained (env : Env) (s : PState) : Prop :=
  match s.stack with
  | [] => True
  | f :: rest => Chain env f rest

theorem value_dyn (h : Handler) : h.value.dyn ≤ h.dyn := by
  cases h <;> simp [Handler.dyn, Handler.value, Val.dyn]

theorem plug_dyn (h : Handler) (l : Link) (v : Val) : (plug h l v).dyn ≤ hole h l + v.dyn := by
  unfold plug
  split
  · simp only [Handler.dyn, hole, itemsDyn_append, itemsDyn]; omega
  · simp only [Handler.dyn, hole, itemsDyn_append, itemsDyn]; omega
  · rename_i k
    simpa [Handler.dyn, Val.dyn, hole] using partsDyn_set_le _ v k
  · simp only [Handler.dyn, hole, entriesDyn_assign _ v]; omega
  · rename_i k
    simpa [Handler.dyn, Val.dyn, hole] using partsDyn_set_le _ v k
  · rw [hole.eq_def]
    rename_i hno hno2 hno3 hno4 hno5
    split
    · exact absurd rfl (hno _ _ rfl)
    · exact absurd rfl (hno2 _ _ _ rfl)
    · exact absurd rfl (hno3 _ _ _ _ _ rfl)
    · exact absurd rfl (hno4 _ _ _ _ rfl)
    · exact absurd rfl (hno5 _ _ _ rfl)
    · omega

theorem set_each (env : Env) {ts : List Ty} {vs : List Val} {v : Val} {k : Nat} (h : NeatEach env ts vs) (hv : ∀ t, ts[k]? = some t → Neat env t v) :
    NeatEach env ts (vs.set k v) := by
  intro i t w ht hw
  by_cases hi : k = i
  · subst hi
    by_cases hl : k < vs.length
    · rw [List.getElem?_set_self hl] at hw
      cases hw
      exact hv t ht
    · rw [List.getElem?_eq_none (by simpa using hl)] at hw
      cases hw
  · rw [List.getElem?_set_ne hi] at hw
    exact h i t w ht hw

theorem set_members (env : Env) {ms : List Member} {vs : List Val} {v : Val} {k : Nat} (h : NeatMembers env ms vs)
    (hv : ∀ m, ms[k]? = some m → m.kind ≠ .optional → Neat env m.ty v) : NeatMembers env ms (vs.set k v) := by
  intro i m w hm ho hw
  by_cases hi : k = i
  · subst hi
    by_cases hl : k < vs.length
    · rw [List.getElem?_set_self hl] at hw
      cases hw
      exact hv m hm ho
    · rw [List.getElem?_eq_none (by simpa using hl)] at hw
      cases hw
  · rw [List.getElem?_set_ne hi] at hw
    exact h i m w hm ho hw

theorem assign_map (env : Env) {t : Ty} {kvs : List (Str × Val)} {k : Str} {v : Val} (h : NeatMap env t kvs) (hv : Neat env t v) :
    NeatMap env t (mapAssign k v kvs) := by
  refine ⟨mapAssign_asc _ _ _ h.1, fun k' w hw => ?_⟩
  have : ∀ kvs : List (Str × Val), (k', w) ∈ mapAssign k v kvs → (k', w) = (k, v) ∨ (k', w) ∈ kvs := by
    intro kvs
    induction kvs with
    | nil => simp [mapAssign]
    | cons p kvs ih =>
      obtain ⟨a, b⟩ := p
      simp only [mapAssign]
      split
      · simp only [List.mem_cons]; rintro (h | h) <;> simp [h]
      · split
        · simp only [List.mem_cons]
          rintro (h | h)
          · simp [h]
          · rcases ih h with h | h <;> simp [h]
        · simp only [List.mem_cons]; rintro (h | h | h) <;> simp [h]
  rcases this kvs hw with h' | h'
  · cases h'; exact hv
  · exact h.2 k' w h'

theorem plug_neat (env : Env) {h : Handler} {l : Link} {v : Val} (hh : h.Neat env) (hv : h.Takes env l v) : (plug h l v).Neat env := by
  unfold plug
  split
  · trivial
  · trivial
  · exact set_each env hh hv
  · exact assign_map env hh hv
  · exact set_members env hh hv
  · exact hh

theorem plug_fills (env : Env) (h : Handler) (l : Link) (v w : Val) : (plug h l v).Fills env w ↔ h.Fills env w := by
  unfold plug
  split <;> rfl

theorem plug_takes (env : Env) (h : Handler) (l l' : Link) (v w : Val) : (plug h l v).Takes env l' w ↔ h.Takes env l' w := by
  unfold plug
  split <;> first | rfl | (cases l' <;> rfl)

theorem Neat.components {env : Env} {ts : List Ty} {v : Val} (h : Neat env (.tuple ts) v) : NeatEach env ts v.components := by
  cases h with | tuple _ _ h => exact h

theorem fit_each (env : Env) (hs : env.Slim) (ts : List Ty) : ∀ vs, NeatEach env ts vs → NeatEach env ts (fit env ts vs) := by
  induction ts with
  | nil => intro vs _ i t w ht; simp at ht
  | cons t ts ih =>
    intro vs h i t' w ht hw
    cases i with
    | zero =>
      simp only [fit, List.getElem?_cons_zero, Option.some.injEq] at ht hw
      subst ht hw
      cases vs with
      | nil => exact neat_of_empty env _ (hs.ctor t) t
      | cons v vs => exact h 0 t v rfl rfl
    | succ i =>
      simp only [fit, List.getElem?_cons_succ] at ht hw
      refine ih vs.tail (fun i t w ht hw => h (i + 1) t w ht ?_) i t' w ht hw
      cases vs with
      | nil => simp at hw
      | cons v vs => exact hw

theorem fit_neatMembers (env : Env) (hs : env.Slim) (ms : List Member) : ∀ vs, NeatMembers env ms vs → NeatMembers env ms (fitMembers env ms vs) := by
  induction ms with
  | nil => intro vs _ i t w ht; simp at ht
  | cons m ms ih =>
    intro vs h i m' w hm ho hw
    cases i with
    | zero =>
      simp only [fitMembers, List.getElem?_cons_zero, Option.some.injEq] at hm hw
      subst hm hw
      cases vs with
      | nil => simp only [List.headD_nil, ho, if_false]; exact neat_of_empty env _ (hs.ctor m.ty) m.ty
      | cons v vs => exact h 0 m v rfl ho rfl
    | succ i =>
      simp only [fitMembers, List.getElem?_cons_succ] at hm hw
      refine ih vs.tail (fun i t w ht ho hw => h (i + 1) t w ht ho ?_) i m' w hm ho hw
      cases vs with
      | nil => simp at hw
      | cons v vs => exact hw

theorem openP_dyn (env : Env) (hs : env.Slim) : ∀ t target n, Neat env t target → (openP env t target n).1.dyn ≤ target.dyn ∧
    (openP env t target n).1.Neat env ∧ (∀ v, ((openP env t target n).2.1 v).dyn ≤ v.dyn) ∧
    ∀ v, (openP env t target n).1.Fills env v → Neat env t ((openP env t target n).2.1 v) := by
  intro t
  induction t using Ty.rec (motive_2 := fun _ => True) with
  | prim p => intro v n _; exact ⟨Nat.le_refl _, trivial, fun _ => Nat.le_refl _, fun _ _ => .prim _ _⟩
  | vec t _ => intro v n _; exact ⟨elements_dyn v, trivial, fun _ => Nat.le_refl _, fun _ _ => .vec _ _⟩
  | arr k t _ =>
    intro v n hn
    have hc : NeatEach env (List.replicate k t) v.components := by
      cases hn with
      | arr _ _ _ h =>
        intro i t' w ht hw
        rw [List.getElem?_replicate] at ht
        split at ht
        · cases ht; exact h i w ‹_› hw
        · cases ht
    refine ⟨?_, fit_each env hs _ _ hc, fun _ => Nat.le_refl _, fun w hw => .arr _ _ _ fun i x hi hx => hw i t x ?_ hx⟩
    · have h1 := fit_dyn env hs (List.replicate k t) v.components
      have h2 := components_dyn v
      simp only [openP, Handler.dyn]
      omega
    · rw [List.getElem?_replicate, if_pos hi]
  | set t _ => intro v n _; exact ⟨elements_dyn v, trivial, fun _ => Nat.le_refl _, fun _ _ => .set _ _⟩
  | map o t _ =>
    intro v n hn
    cases hn with
    | map _ _ _ h1 h2 => exact ⟨entries_dyn v, ⟨h1, h2⟩, fun _ => Nat.le_refl _, fun w hw => .map _ _ _ hw.1 hw.2⟩
  | dict t _ =>
    intro v n _
    refine ⟨?_, trivial, fun v => ?_, fun _ _ => .dict _ _⟩
    · have := entries_dyn v
      simpa [openP, Handler.dyn, Val.dyn, pairs_dyn] using this
    · have h1 := entriesDyn_dict v.elements
      have h2 := elements_dyn v
      simp only [openP, Val.dyn]
      omega
  | tuple ts _ =>
    intro v n hn
    refine ⟨?_, fit_each env hs _ _ hn.components, fun _ => Nat.le_refl _, fun w hw => .tuple _ _ hw⟩
    have h1 := fit_dyn env hs ts v.components
    have h2 := components_dyn v
    simp only [openP, Handler.dyn]
    omega
  | variant ts _ => intro v n _; exact ⟨Nat.le_refl _, trivial, fun _ => Nat.le_refl _, fun _ _ => .variant _ _⟩
  | cls c =>
    intro v n hn
    simp only [openP]
    split
    · rename_i he
      exact ⟨Nat.le_refl _, trivial, fun _ => Nat.le_refl _, fun w _ => .cls _ _ fun i m x hm => by simp [he] at hm⟩
    · have hc : NeatMembers env (env.members c) v.members := by cases hn with | cls _ _ h => exact h
      refine ⟨?_, fit_neatMembers env hs _ _ hc, fun _ => Nat.le_refl _, fun w hw => .cls _ _ hw⟩
      have h1 := fitMembers_dyn env hs (env.members c) v.members
      have h2 := members_dyn v
      simp only [Handler.dyn]
      omega
  | uptr t ih =>
    intro v n _
    obtain ⟨h1, h2, h3, _⟩ := ih (env.ctor t) n (neat_of_empty env _ (hs.ctor t) t)
    rw [hs.ctor] at h1
    refine ⟨by simp only [openP]; omega, h2, fun w => ?_, fun w _ => .uptr _ _⟩
    simpa [openP, Val.dyn] using h3 w
  | sptr t ih =>
    intro v n _
    obtain ⟨h1, h2, h3, _⟩ := ih (env.ctor t) (n + 1) (neat_of_empty env _ (hs.ctor t) t)
    rw [hs.ctor] at h1
    refine ⟨by simp only [openP]; omega, h2, fun w => ?_, fun w _ => .sptr _ _⟩
    simpa [openP, Val.dyn] using h3 w
  | nil => trivial
  | cons _ _ _ _ => trivial

/-! ## Steps -/

theorem leafParse_dyn (env : Env) {p : Prim} {e : Event} {pv : PVal} (h : leafParse env p e = .ok pv) : pv.dyn + 1 ≤ e.extent := by
  have ints : ∀ (T : NumTy) (n : JsonNum), numParse T n = .ok pv → pv.dyn = 0 := by
    intro T n h
    unfold numParse at h
    split at h
    · rename_i v _
      cases h
      cases v <;> rfl
    · cases h
  cases p with
  | null => cases e <;> simp [leafParse] at h; subst h; simp [PVal.dyn, Event.extent]
  | bool => cases e <;> simp [leafParse] at h; subst h; simp [PVal.dyn, Event.extent]
  | int t => cases e <;> simp only [leafParse] at h <;> first | (rw [ints _ _ h]; simp [Event.extent]) | cases h
  | flt t => cases e <;> simp only [leafParse] at h <;> first | (rw [ints _ _ h]; simp [Event.extent]) | cases h
  | enumInt t => cases e <;> simp only [leafParse] at h <;> first | (rw [ints _ _ h]; simp [Event.extent]) | cases h
  | str => cases e <;> simp [leafParse] at h; subst h; simp only [PVal.dyn, Event.extent]; omega
  | bytes =>
    cases e with
    | str s =>
      simp only [leafParse] at h
      split at h
      · rename_i bs hb
        cases h
        have := decode_length hb
        simp only [PVal.dyn, Event.extent]
        omega
      · cases h
    | _ => simp [leafParse] at h
  | time =>
    cases e with
    | str s =>
      simp only [leafParse] at h
      split at h
      · cases h; simp [PVal.dyn, Event.extent]
      · cases h
      · cases h
    | _ => simp [leafParse] at h
  | date =>
    cases e with
    | str s =>
      simp only [leafParse] at h
      split at h
      · cases h; simp [PVal.dyn, Event.extent]
      · cases h
      · cases h
    | _ => simp [leafParse] at h
  | enumStr table =>
    cases e with
    | str s =>
      simp only [leafParse] at h
      split at h
      · cases h; simp [PVal.dyn, Event.extent]
      · cases h
    | _ => simp [leafParse] at h

theorem Chain.top {env : Env} {f : Frame} {rest : List Frame} (h : Chain env f rest) : f.handler.Neat env ∧ ∀ v, (f.wrap v).dyn ≤ v.dyn := by
  cases rest with
  | nil => exact h
  | cons p rest => exact ⟨h.1, h.2.1⟩

/-- Another handler for the same kind of object. -/
theorem Chain.change {env : Env} {f : Frame} {rest : List Frame} (h : Chain env f rest) (g : Frame) (hl : g.link = f.link) (hw : g.wrap = f.wrap)
    (hn : g.handler.Neat env) (hf : ∀ v, g.handler.Fills env v → f.handler.Fills env v) : Chain env g rest := by
  cases rest with
  | nil => exact ⟨hn, by rw [hw]; exact h.2⟩
  | cons p rest => exact ⟨hn, by rw [hw]; exact h.2.1, fun v hv => by rw [hl, hw]; exact h.2.2.1 v (hf v hv), h.2.2.2⟩

theorem popTo_size (env : Env) {f : Frame} {rest : List Frame} (hc : Chain env f rest) (v : Val) (hv : f.handler.Fills env v) (fin : Option Val) (n : Nat) :
    (popTo f.wrap f.link v rest fin n).Chained env ∧ (popTo f.wrap f.link v rest fin n).mass ≤ v.dyn + holes f.link rest := by
  cases rest with
  | nil =>
    refine ⟨trivial, ?_⟩
    simpa [popTo, PState.mass, holes] using hc.2 v
  | cons p rest =>
    obtain ⟨_, h2, h3, h4⟩ := hc
    refine ⟨?_, ?_⟩
    · exact h4.change _ rfl rfl (plug_neat env h4.top.1 (h3 v hv)) fun w hw => (plug_fills env _ _ _ w).1 hw
    · have h5 := plug_dyn p.handler f.link (f.wrap v)
      have h6 := h2 v
      simp only [popTo, PState.mass, holes]
      omega

theorem replaceTop_size (env : Env) (host : Host) {f : Frame} {rest : List Frame} (hc : Chain env f rest) (fin : Option Val) (n : Nat) (c : HClass) (h : Handler)
    (hd : h.dyn = f.handler.dyn) (hn : h.Neat env) (hf : ∀ v, h.Fills env v → f.handler.Fills env v) {s' : PState}
    (hr : replaceTop host f rest fin n c h = .go s') : s'.Chained env ∧ s'.mass = f.handler.dyn + holes f.link rest := by
  unfold replaceTop at hr
  split at hr
  · cases hr
    exact ⟨hc.change _ rfl rfl hn hf, by simp [PState.mass, hd]⟩
  · cases hr

theorem openStep_size (env : Env) (host : Host) {f : Frame} {rest : List Frame} (hc : Chain env f rest) (fin : Option Val) (n : Nat) (e : Event) {s' : PState}
    (hr : openStep env host f rest fin n e = .go s') : s'.Chained env ∧ s'.mass + 1 ≤ f.handler.dyn + holes f.link rest + e.extent := by
  have htop := hc.top.1
  have repl : ∀ (c : HClass) (h : Handler), replaceTop host f rest fin n c h = .go s' → h.dyn = f.handler.dyn → h.Neat env →
      (∀ v, h.Fills env v → f.handler.Fills env v) → 1 ≤ e.extent → s'.Chained env ∧ s'.mass + 1 ≤ f.handler.dyn + holes f.link rest + e.extent := by
    intro c h h5 h1 h2 h3 h4
    have := replaceTop_size env host hc fin n c h h1 h2 h3 h5
    exact ⟨this.1, by omega⟩
  unfold openStep at hr
  split at hr
  · rename_i p v hf
    split at hr
    · cases hr
    · cases hr
    · rename_i pv hpv
      have h1 := leafParse_dyn env hpv
      split at hr
      · cases hr
        refine ⟨hc.change _ rfl rfl trivial fun _ _ => by rw [hf]; trivial, ?_⟩
        simp only [PState.mass, Handler.dyn, Val.dyn]
        omega
      · cases hr
        have h2 := popTo_size env hc (.prim pv) (by rw [hf]; trivial) fin n
        refine ⟨h2.1, ?_⟩
        have := h2.2
        simp only [Val.dyn] at this
        omega
  · rename_i t vs hf
    split at hr
    · exact repl _ _ hr (by rw [hf]; rfl) trivial (fun _ _ => by rw [hf]; trivial) (by simp [Event.extent])
    · cases hr
  · rename_i t vs hf
    split at hr
    · exact repl _ _ hr (by rw [hf]; simp [Handler.dyn, itemsDyn]) trivial (fun _ _ => by rw [hf]; trivial) (by simp [Event.extent])
    · cases hr
  · rename_i C ts vs hf
    rw [hf] at htop
    split at hr
    · exact repl _ _ hr (by rw [hf]; rfl) htop (fun _ h => by rw [hf]; exact h) (by simp [Event.extent])
    · cases hr
  · rename_i C t kvs hf
    rw [hf] at htop
    split at hr
    · exact repl _ _ hr (by rw [hf]; rfl) htop (fun _ h => by rw [hf]; exact h) (by simp [Event.extent])
    · cases hr
  · rename_i c vs hf
    rw [hf] at htop
    split at hr
    · exact repl _ _ hr (by rw [hf]; rfl) htop (fun _ h => by rw [hf]; exact h) (by simp [Event.extent])
    · cases hr
  · cases hr

/-- A new frame for a part. -/
theorem emplaceP_size (env : Env) (hs : env.Slim) (host : Host) {f : Frame} {rest : List Frame} (hc : Chain env f rest) (n : Nat) (c : HClass) (t : Ty) (target : Val)
    (hn : Neat env t target) (link : Link) (outer : Val → Val) (ho : ∀ v, (outer v).dyn ≤ v.dyn) (ht : ∀ v, Neat env t v → f.handler.Takes env link (outer v))
    (k : Frame → Nat → POut) {s' : PState} (hr : emplaceP env host (f :: rest) n c t target link outer k = .go s') :
    ∃ g n', k g n' = .go s' ∧ Chain env g (f :: rest) ∧ g.link = link ∧ g.handler.dyn ≤ target.dyn := by
  unfold emplaceP at hr
  split at hr
  · obtain ⟨h1, h2, h3, h4⟩ := openP_dyn env hs t target n hn
    refine ⟨_, _, hr, ⟨h2, fun v => Nat.le_trans (ho _) (h3 v), fun v hv => ht _ (h4 v hv), hc⟩, rfl, h1⟩
  · cases hr

theorem isToken_extent {t : Ty} {e : Event} (h : isToken t e = true) : 1 ≤ e.extent := by
  induction t using Ty.rec (motive_2 := fun _ => True) with
  | prim p => cases p <;> cases e <;> simp [isToken] at h <;> simp [Event.extent]
  | uptr t ih => exact ih h
  | sptr t ih => exact ih h
  | nil => trivial
  | cons _ _ _ _ => trivial
  | _ => cases e <;> simp [isToken] at h <;> simp [Event.extent]

theorem hd_vec (t : Ty) (vs : List Val) : (Handler.vecItems t vs).dyn = itemsDyn vs := rfl
theorem hd_set (t : Ty) (storage vs : List Val) : (Handler.setItems t storage vs).dyn = itemsDyn storage + itemsDyn vs := rfl
theorem hd_fix (C : Ty) (ts : List Ty) (i : Nat) (vs : List Val) : (Handler.fixItems C ts i vs).dyn = partsDyn vs := rfl
theorem hd_map (C t : Ty) (kvs : List (Str × Val)) : (Handler.mapItems C t kvs).dyn = entriesDyn kvs := rfl
theorem hd_obj (c : Nat) (vs : List Val) : (Handler.objItems c vs).dyn = partsDyn vs := rfl

set_option linter.unusedSimpArgs false in
theorem pstep_size (env : Env) (hs : env.Slim) (host : Host) {s s' : PState} {e : Event} (hc : s.Chained env) (hr : pstep env host s e = .go s') :
    s'.Chained env ∧ s'.mass ≤ s.mass + e.extent := by
  obtain ⟨stack, fin, n⟩ := s
  cases stack with
  | nil => cases hr
  | cons f rest =>
    replace hc : Chain env f rest := hc
    have htop := hc.top.1
    unfold pstep at hr
    dsimp only at hr
    have hm : PState.mass ⟨f :: rest, fin, n⟩ = f.handler.dyn + holes f.link rest := rfl
    rw [hm]
    split at hr
    · rename_i t vs hf
      split at hr
      · cases hr
        have := popTo_size env hc (.seq vs) (by rw [hf]; trivial) fin n
        refine ⟨this.1, ?_⟩
        have h2 := this.2
        simp only [hf, hd_vec, hd_fix, hd_map, hd_obj, Val.dyn] at h2 ⊢
        omega
      · split at hr
        · split at hr
          · cases hr
          · cases hr
          · rename_i pv hpv
            cases hr
            have := leafParse_dyn env hpv
            refine ⟨hc.change _ rfl rfl trivial fun _ _ => by rw [hf]; trivial, ?_⟩
            simp only [PState.mass, hf, hd_vec, hd_set, hd_fix, hd_map, hd_obj, Val.dyn, itemsDyn_append, itemsDyn]
            omega
        · split at hr
          · obtain ⟨g, n', hk, hg, hl, hd⟩ := emplaceP_size env hs host hc n _ t (env.ctor t) (neat_of_empty env _ (hs.ctor t) t) .item id
              (fun _ => Nat.le_refl _) (fun _ _ => by rw [hf]; trivial) _ hr
            have := openStep_size env host hg _ _ _ hk
            refine ⟨this.1, ?_⟩
            have h2 := this.2
            rw [hs.ctor] at hd
            rw [hl] at h2
            simp only [holes, hf, hole, hd_vec, hd_set, hd_fix, hd_map, hd_obj, Val.dyn] at h2 ⊢
            omega
          · cases hr
    · rename_i t storage vs hf
      split at hr
      · cases hr
        have := popTo_size env hc (.set (storage.foldl (fun s v => setInsert env.less v s) vs)) (by rw [hf]; trivial) fin n
        refine ⟨this.1, ?_⟩
        have h2 := this.2
        have h3 := itemsDyn_fold env.less storage vs
        simp only [hf, hd_vec, hd_set, hd_fix, hd_map, hd_obj, Val.dyn] at h2 ⊢
        omega
      · split at hr
        · split at hr
          · cases hr
          · cases hr
          · rename_i pv hpv
            cases hr
            have := leafParse_dyn env hpv
            have h3 := itemsDyn_insert env.less (.prim pv) vs
            refine ⟨hc.change _ rfl rfl trivial fun _ _ => by rw [hf]; trivial, ?_⟩
            simp only [PState.mass, hf, hd_vec, hd_set, hd_fix, hd_map, hd_obj, Val.dyn] at h3 ⊢
            omega
        · split at hr
          · obtain ⟨g, n', hk, hg, hl, hd⟩ := emplaceP_size env hs host hc n _ t (env.ctor t) (neat_of_empty env _ (hs.ctor t) t) .item id
              (fun _ => Nat.le_refl _) (fun _ _ => by rw [hf]; trivial) _ hr
            have := openStep_size env host hg _ _ _ hk
            refine ⟨this.1, ?_⟩
            have h2 := this.2
            rw [hs.ctor] at hd
            rw [hl] at h2
            simp only [holes, hf, hole, hd_vec, hd_set, hd_fix, hd_map, hd_obj] at h2 ⊢
            omega
          · cases hr
    · rename_i C ts i vs hf
      rw [hf] at htop
      split at hr
      · split at hr
        · cases hr
          have := popTo_size env hc (.tup vs) (by rw [hf]; exact htop) fin n
          refine ⟨this.1, ?_⟩
          have h2 := this.2
          simp only [hf, hd_fix, Val.dyn] at h2 ⊢
          omega
        · cases hr
      · rename_i t hti
        split at hr
        · split at hr
          · have hc' : Chain env { f with cls := .fixed C (i + 1), handler := .fixItems C ts (i + 1) vs } rest :=
              hc.change _ rfl rfl htop fun _ h => by rw [hf]; exact h
            have hneat : Neat env t (vs.getD i (env.ctor t)) := by
              rw [List.getD_eq_getElem?_getD]
              cases hv : vs[i]? with
              | none => exact neat_of_empty env _ (hs.ctor t) t
              | some w => exact htop i t w hti hv
            obtain ⟨g, n', hk, hg, hl, hd⟩ := emplaceP_size env hs host hc' n _ t _ hneat (.nth i) id
              (fun _ => Nat.le_refl _) (fun v hv t' ht' => by rw [hti] at ht'; cases ht'; exact hv) _ hr
            have := openStep_size env host hg _ _ _ hk
            refine ⟨this.1, ?_⟩
            have h2 := this.2
            have h3 := partsDyn_getD vs (env.ctor t) (hs.ctor t) i
            rw [hl] at h2
            simp only [holes, hf, hole, hd_vec, hd_set, hd_fix, hd_map, hd_obj, Val.dyn] at h2 ⊢
            omega
          · cases hr
        · cases hr
    · rename_i C t kvs hf
      rw [hf] at htop
      split at hr
      · cases hr
        have := popTo_size env hc (.map kvs) (by rw [hf]; exact htop) fin n
        refine ⟨this.1, ?_⟩
        have h2 := this.2
        simp only [hf, hd_vec, hd_fix, hd_map, hd_obj, Val.dyn] at h2 ⊢
        omega
      · rename_i k
        have hneat : Neat env t ((kvs.lookup k).getD (env.ctor t)) := by
          cases hv : kvs.lookup k with
          | none => exact neat_of_empty env _ (hs.ctor t) t
          | some w =>
            rw [List.lookup_eq_some_iff] at hv
            obtain ⟨l1, l2, rfl, _⟩ := hv
            exact htop.2 k w (by simp)
        obtain ⟨g, n', hk, hg, hl, hd⟩ := emplaceP_size env hs host hc n _ t _ hneat (.key k) id
          (fun _ => Nat.le_refl _) (fun v hv => by rw [hf]; exact hv) _ hr
        cases hk
        refine ⟨hg, ?_⟩
        have h3 := entriesDyn_lookup k (env.ctor t) (hs.ctor t) kvs htop.1
        simp only [PState.mass, holes, hl, hf, hole, hd_vec, hd_set, hd_fix, hd_map, hd_obj, Val.dyn, Event.extent]
        omega
      · cases hr
    · rename_i c vs hf
      rw [hf] at htop
      split at hr
      · cases hr
        have := popTo_size env hc (.obj vs) (by rw [hf]; exact htop) fin n
        refine ⟨this.1, ?_⟩
        have h2 := this.2
        simp only [hf, hd_vec, hd_fix, hd_map, hd_obj, Val.dyn] at h2 ⊢
        omega
      · rename_i k
        split at hr
        · cases hr
        · cases hr
        · rename_i i _
          split at hr
          · cases hr
          · rename_i m hmi
            have h3 := partsDyn_getD vs (env.ctor m.ty) (hs.ctor m.ty) i
            split at hr
            · rename_i hopt
              obtain ⟨g, n', hk, hg, hl, hd⟩ := emplaceP_size env hs host hc n _ m.ty _ (neat_of_empty env _ (hs.ctor m.ty) m.ty) (.member i) .present
                (fun _ => Nat.le_refl _) (fun v hv => by rw [hf]; intro m' hm' hno; rw [hmi] at hm'; cases hm'; exact absurd hopt hno) _ hr
              cases hk
              refine ⟨hg, ?_⟩
              rw [hs.ctor] at hd
              simp only [PState.mass, holes, hl, hf, hole, hd_vec, hd_set, hd_fix, hd_map, hd_obj, Val.dyn, Event.extent]
              omega
            · have hneat : m.kind ≠ .optional → Neat env m.ty (vs.getD i (env.ctor m.ty)) := by
                intro hno
                rw [List.getD_eq_getElem?_getD]
                cases hv : vs[i]? with
                | none => exact neat_of_empty env _ (hs.ctor _) _
                | some w => exact htop i m w hmi hno hv
              obtain ⟨g, n', hk, hg, hl, hd⟩ := emplaceP_size env hs host hc n _ m.ty _ (hneat ‹_›) (.member i) id
                (fun _ => Nat.le_refl _) (fun v hv => by rw [hf]; intro m' hm' _; rw [hmi] at hm'; cases hm'; exact hv) _ hr
              cases hk
              refine ⟨hg, ?_⟩
              simp only [PState.mass, holes, hl, hf, hole, hd_vec, hd_set, hd_fix, hd_map, hd_obj, Val.dyn, Event.extent]
              omega
      · cases hr
    · have := openStep_size env host hc fin n e hr
      exact ⟨this.1, by omega⟩

theorem prun_size (env : Env) (hs : env.Slim) (host : Host) : ∀ es {s s' : PState}, s.Chained env → prun env host s es = .go s' →
    s'.Chained env ∧ s'.mass ≤ s.mass + extents es := by
  intro es
  induction es with
  | nil => intro s s' hc hr; cases hr; exact ⟨hc, by simp [extents]⟩
  | cons e es ih =>
    intro s s' hc hr
    simp only [prun] at hr
    cases hp : pstep env host s e with
    | go s1 =>
      rw [hp] at hr
      have h1 := pstep_size env hs host hc hp
      have h2 := ih h1.1 hr
      refine ⟨h2.1, ?_⟩
      have := h1.2
      have := h2.2
      simp only [extents]
      omega
    | _ => rw [hp] at hr; cases hr

theorem collapse_size (env : Env) (rest : List Frame) : ∀ f, Chain env f rest →
    ((collapse f rest).wrap (collapse f rest).handler.value).dyn ≤ f.handler.dyn + holes f.link rest := by
  induction rest with
  | nil =>
    intro f hc
    have h1 := value_dyn f.handler
    have h2 := hc.2 f.handler.value
    simp only [collapse, List.foldl_nil, holes]
    omega
  | cons p rest ih =>
    intro f hc
    obtain ⟨h1, h2, h3, h4⟩ := hc
    have hv : f.handler.Fills env f.handler.value := by
      cases hh : f.handler <;> rw [hh] at h1 <;> first | exact h1 | trivial
    have h5 := ih { p with handler := plug p.handler f.link (f.wrap f.handler.value) }
      (h4.change _ rfl rfl (plug_neat env h4.top.1 (h3 _ hv)) fun w hw => (plug_fills env _ _ _ w).1 hw)
    have h6 := plug_dyn p.handler f.link (f.wrap f.handler.value)
    have h7 := h2 f.handler.value
    have h8 := value_dyn f.handler
    have h9 : collapse f (p :: rest) = collapse { p with handler := plug p.handler f.link (f.wrap f.handler.value) } rest := rfl
    rw [h9]
    simp only [holes] at h5 ⊢
    omega

theorem target_size (env : Env) {s : PState} (h : s.Chained env) : s.target.dyn ≤ s.mass := by
  obtain ⟨stack, fin, n⟩ := s
  cases stack with
  | nil => exact Nat.le_refl _
  | cons f rest => exact collapse_size env rest f h

theorem start_size (env : Env) (hs : env.Slim) (t : Ty) (target : Val) (n : Nat) (hn : Neat env t target) :
    (start env t target n).Chained env ∧ (start env t target n).mass ≤ target.dyn := by
  obtain ⟨h1, h2, h3, _⟩ := openP_dyn env hs t target n hn
  exact ⟨⟨h2, h3⟩, by simpa [start, PState.mass, holes] using h1⟩

/-! ## What a failed parse leaves -/

theorem refusedTop_neat (env : Env) (e : Event) (h : Handler) : ((refusedTop e h).Neat env ↔ h.Neat env) ∧ ∀ v, (refusedTop e h).Fills env v ↔ h.Fills env v := by
  unfold refusedTop
  split
  · split <;> exact ⟨Iff.rfl, fun _ => Iff.rfl⟩
  · exact ⟨Iff.rfl, fun _ => Iff.rfl⟩

theorem refusedTop_dyn (e : Event) (h : Handler) : (refusedTop e h).dyn ≤ h.dyn + (e.extent - 1) := by
  unfold refusedTop
  split
  · split
    · rename_i s
      have := decodeOut_length s
      simp only [Handler.dyn, Val.dyn, PVal.dyn, Event.extent]
      omega
    · omega
  · omega

theorem pushRefused_size (env : Env) (hs : env.Slim) {f : Frame} {rest : List Frame} (hc : Chain env f rest) (fin : Option Val) (n : Nat) (t : Ty) (target : Val)
    (hn : Neat env t target) (link : Link) (ht : ∀ v, Neat env t v → f.handler.Takes env link v) (e : Event) :
    (pushRefused env (f :: rest) fin n t target link e).Chained env ∧
      (pushRefused env (f :: rest) fin n t target link e).mass ≤ target.dyn + (e.extent - 1) + holes link (f :: rest) := by
  obtain ⟨h1, h2, h3, h4⟩ := openP_dyn env hs t target n hn
  have h5 := refusedTop_neat env e (openP env t target n).1
  refine ⟨⟨h5.1.2 h2, h3, fun v hv => ht _ (h4 v ((h5.2 v).1 hv)), hc⟩, ?_⟩
  have h6 := refusedTop_dyn e (openP env t target n).1
  simp only [pushRefused, PState.mass]
  omega

set_option linter.unusedSimpArgs false in
theorem refusedAt_size (env : Env) (hs : env.Slim) (host : Host) {s : PState} {e : Event} (hc : s.Chained env) :
    (refusedAt env host s e).Chained env ∧ (refusedAt env host s e).mass ≤ s.mass + e.extent := by
  obtain ⟨stack, fin, n⟩ := s
  have same : PState.Chained env ⟨stack, fin, n⟩ ∧ PState.mass ⟨stack, fin, n⟩ ≤ PState.mass ⟨stack, fin, n⟩ + e.extent := ⟨hc, by omega⟩
  cases stack with
  | nil => exact same
  | cons f rest =>
    have hc' : Chain env f rest := hc
    have htop := hc'.top.1
    have hm : PState.mass ⟨f :: rest, fin, n⟩ = f.handler.dyn + holes f.link rest := rfl
    unfold refusedAt
    dsimp only
    split
    · rename_i t vs hf
      split
      · exact same
      · split
        · rename_i hi
          have hx := isToken_extent hi
          split
          · have := pushRefused_size env hs hc' fin n t (env.ctor t) (neat_of_empty env _ (hs.ctor t) t) .item (fun _ _ => by rw [hf]; trivial) e
            refine ⟨this.1, ?_⟩
            have h2 := this.2
            rw [hs.ctor] at h2
            rw [hm]
            simp only [holes, hf, hole, hd_vec] at h2 ⊢
            omega
          · refine ⟨hc'.change _ rfl rfl trivial fun _ _ => by rw [hf]; trivial, ?_⟩
            rw [hm]
            simp only [PState.mass, hf, hd_vec, itemsDyn_append, itemsDyn, hs.ctor]
            omega
        · exact same
    · exact same
    · rename_i C ts i vs hf
      rw [hf] at htop
      split
      · exact same
      · rename_i t hti
        split
        · have hc2 : Chain env { f with cls := .fixed C (i + 1), handler := .fixItems C ts (i + 1) vs } rest :=
            hc'.change _ rfl rfl htop fun _ h => by rw [hf]; exact h
          have hneat : Neat env t (vs.getD i (env.ctor t)) := by
            rw [List.getD_eq_getElem?_getD]
            cases hv : vs[i]? with
            | none => exact neat_of_empty env _ (hs.ctor t) t
            | some w => exact htop i t w hti hv
          have := pushRefused_size env hs hc2 fin n t _ hneat (.nth i) (fun v hv t' ht' => by rw [hti] at ht'; cases ht'; exact hv) e
          refine ⟨this.1, ?_⟩
          have h2 := this.2
          have h3 := partsDyn_getD vs (env.ctor t) (hs.ctor t) i
          rw [hm]
          simp only [holes, hf, hole, hd_fix] at h2 ⊢
          omega
        · exact same
    · rename_i C t kvs hf
      rw [hf] at htop
      split
      · rename_i k
        have hneat : Neat env t ((kvs.lookup k).getD (env.ctor t)) := by
          cases hv : kvs.lookup k with
          | none => exact neat_of_empty env _ (hs.ctor t) t
          | some w =>
            rw [List.lookup_eq_some_iff] at hv
            obtain ⟨l1, l2, rfl, _⟩ := hv
            exact htop.2 k w (by simp)
        refine ⟨hc'.change _ rfl rfl (assign_map env htop hneat) fun _ h => by rw [hf]; exact h, ?_⟩
        have h3 := entriesDyn_lookup k (env.ctor t) (hs.ctor t) kvs htop.1
        have h4 := entriesDyn_assign k ((kvs.lookup k).getD (env.ctor t)) kvs
        rw [hm]
        simp only [PState.mass, hf, hd_map, Event.extent]
        omega
      · exact same
    · exact same
    · have h1 := refusedTop_neat env e f.handler
      have h2 := refusedTop_dyn e f.handler
      refine ⟨hc'.change _ rfl rfl (h1.1.2 htop) fun v hv => (h1.2 v).1 hv, ?_⟩
      rw [hm]
      simp only [PState.mass]
      omega

theorem left_size (env : Env) (hs : env.Slim) (host : Host) : ∀ es {s : PState}, s.Chained env → (left env host s es).dyn ≤ s.mass + extents es := by
  intro es
  induction es with
  | nil => intro s hc; simpa [left, extents] using target_size env hc
  | cons e es ih =>
    intro s hc
    simp only [left, extents]
    have hrefused := refusedAt_size env hs host (e := e) hc
    have := target_size env hrefused.1
    split
    · rename_i s' hp
      have h1 := pstep_size env hs host hc hp
      have h2 := ih h1.1
      omega
    · omega

/-! ## Typed values -/

theorem neat_of_hasTy (env : Env) (H : Heap) (v : Val) : ∀ t, HasTy env H v t → Neat env t v := by
  induction v using Val.strong with
  | h v ih =>
    intro t h
    cases t with
    | prim p => exact .prim _ _
    | vec t => exact .vec _ _
    | set t => exact .set _ _
    | dict t => exact .dict _ _
    | variant ts => exact .variant _ _
    | uptr t => exact .uptr _ _
    | sptr t => exact .sptr _ _
    | arr k t =>
      cases v with
      | tup vs =>
        simp only [HasTy, AllTy_iff] at h
        exact .arr _ _ _ fun i w _ hw => ih w (components_mem hw).1 t (h.2 w (List.mem_of_getElem? hw))
      | _ => simp [HasTy] at h
    | tuple ts =>
      cases v with
      | tup vs =>
        simp only [HasTy] at h
        refine .tuple _ _ fun i t w ht hw => ih w (components_mem hw).1 t ?_
        clear ih
        replace hw : vs[i]? = some w := hw
        induction vs generalizing ts i with
        | nil => simp at hw
        | cons x vs ih' =>
          cases ts with
          | nil => simp at ht
          | cons t' ts =>
            simp only [HasTys] at h
            cases i with
            | zero => simp at ht hw; subst ht hw; exact h.1
            | succ i => exact ih' ts h.2 i (by simpa using ht) (by simpa using hw)
      | _ => simp [HasTy] at h
    | map o t =>
      cases v with
      | map kvs =>
        simp only [HasTy, ValsTy_iff] at h
        exact .map _ _ _ ((keysAsc_iff kvs).1 h.2) fun k w hw => ih w (by have : sizeOf w < sizeOf kvs := mem_size_kv (p := (k, w)) hw; simp; omega) t (h.1 (k, w) hw)
      | _ => simp [HasTy] at h
    | cls c =>
      cases v with
      | obj vs =>
        simp only [HasTy] at h
        refine .cls _ _ fun i m w hm ho hw => ih w (members_mem hw).1 m.ty ?_
        clear ih
        replace hw : vs[i]? = some w := hw
        generalize env.members c = ms at h hm
        induction vs generalizing ms i with
        | nil => simp at hw
        | cons x vs ih' =>
          cases ms with
          | nil => simp at hm
          | cons m' ms =>
            rw [MembersTy.eq_def] at h
            cases i with
            | zero =>
              simp at hm hw
              subst hm hw
              have := h.1
              cases hk : m'.kind with
              | optional => exact absurd hk ho
              | required => rw [hk] at this; simpa using this
              | default => rw [hk] at this; simpa using this
            | succ i => exact ih' i (by simpa using hw) ms h.2 (by simpa using hm)
      | _ => simp [HasTy] at h

end Verif.Core
