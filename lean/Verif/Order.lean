import Verif.RoundTrip
import Verif.SchemaValid

/-!
# Unordered maps

`std::unordered_map` iterates in an order that depends on the hash function, on the number of buckets and on the history of the
map. `Env.order` is this order. Here two programs are compared that differ in it only.
-/

namespace Verif.Core

/-- The same program with another library (or another history of its unordered maps): `o` is the order of iteration
(serialize_map.hpp:19, write_map.hpp:19). -/
def Env.iterating (env : Env) (o : List Seg → List Str → List Str) : Env := { env with order := o }

mutual
/-- The same document but for the order of members in some of its objects (specification). Where members change places,
the keys are pairwise distinct. -/
inductive Permuted : Json → Json → Prop
  | same (j : Json) : Permuted j j
  | arr {js js' : List Json} : PermutedAll js js' → Permuted (.arr js) (.arr js')
  | fields {ms ms' : List (Str × Json)} : PermutedFields ms ms' → Permuted (.obj ms) (.obj ms')
  | obj {ms ms' ms'' : List (Str × Json)} : (ms.map (·.1)).Nodup → ms.Perm ms' → PermutedFields ms' ms'' → Permuted (.obj ms) (.obj ms'')

/-- `Permuted` element by element. -/
inductive PermutedAll : List Json → List Json → Prop
  | nil : PermutedAll [] []
  | cons {j j' : Json} {js js' : List Json} : Permuted j j' → PermutedAll js js' → PermutedAll (j :: js) (j' :: js')

/-- `Permuted` member by member. -/
inductive PermutedFields : List (Str × Json) → List (Str × Json) → Prop
  | nil : PermutedFields [] []
  | cons {k : Str} {j j' : Json} {ms ms' : List (Str × Json)} : Permuted j j' → PermutedFields ms ms' → PermutedFields ((k, j) :: ms) ((k, j') :: ms')
end

/-! ## What does not depend on the order -/

theorem iterating_members (env : Env) (o) (c : Nat) : (env.iterating o).members c = env.members c := rfl

theorem iterating_serPrim (env : Env) (o) (k : Prim) (p : PVal) : serPrim (env.iterating o) k p = serPrim env k p := by
  unfold serPrim
  rfl

theorem iterating_primTy (env : Env) (o) (p : PVal) (k : Prim) : PrimTy (env.iterating o) p k ↔ PrimTy env p k := by
  cases p <;> cases k <;> exact Iff.rfl

theorem iterating_ty (env : Env) (o) (H : Heap) : ∀ v t, HasTy (env.iterating o) H v t ↔ HasTy env H v t := by
  apply Val.strong
  intro v ih t
  have all : ∀ (vs : List Val) (t : Ty), (∀ w ∈ vs, sizeOf w < sizeOf v) → (AllTy (env.iterating o) H vs t ↔ AllTy env H vs t) := by
    intro vs t h
    rw [AllTy_iff, AllTy_iff]
    exact ⟨fun h' w hw => (ih w (h w hw) t).1 (h' w hw), fun h' w hw => (ih w (h w hw) t).2 (h' w hw)⟩
  have vals : ∀ (kvs : List (Str × Val)) (t : Ty), (∀ p ∈ kvs, sizeOf p.2 < sizeOf v) → (ValsTy (env.iterating o) H kvs t ↔ ValsTy env H kvs t) := by
    intro kvs t h
    rw [ValsTy_iff, ValsTy_iff]
    exact ⟨fun h' p hp => (ih p.2 (h p hp) t).1 (h' p hp), fun h' p hp => (ih p.2 (h p hp) t).2 (h' p hp)⟩
  have each : ∀ (vs : List Val) (ts : List Ty), (∀ w ∈ vs, sizeOf w < sizeOf v) → (HasTys (env.iterating o) H vs ts ↔ HasTys env H vs ts) := by
    intro vs
    induction vs with
    | nil => intro ts _; cases ts <;> simp [HasTys]
    | cons w vs ih' =>
      intro ts h
      cases ts with
      | nil => simp [HasTys]
      | cons t ts => simp only [HasTys]; rw [ih w (h w (by simp)) t, ih' ts (fun w hw => h w (by simp [hw]))]
  have members : ∀ (vs : List Val) (ms : List Member), (∀ w : Val, sizeOf w < 1 + sizeOf vs → sizeOf w < sizeOf v) →
      (MembersTy (env.iterating o) H vs ms ↔ MembersTy env H vs ms) := by
    intro vs
    induction vs with
    | nil => intro ms _; cases ms <;> simp [MembersTy]
    | cons w vs ih' =>
      intro ms h
      cases ms with
      | nil => simp [MembersTy]
      | cons m ms =>
        rw [MembersTy_cons, MembersTy_cons, ih' ms (fun u hu => h u (by simp; omega))]
        cases hf : fieldOf m.kind w with
        | here u =>
          have hu : sizeOf u ≤ sizeOf w := by
            rcases fieldOf_here hf with ⟨-, rfl⟩ | ⟨-, rfl⟩ <;> simp
          simp only
          rw [ih u (h u (by simp; omega))]
        | _ => exact Iff.rfl
  cases v <;> cases t <;> simp only [HasTy]
  case prim.prim p k => exact iterating_primTy env o p k
  case seq.vec vs t => exact all vs t fun w hw => by have := mem_size hw; simp; omega
  case tup.arr vs n t => rw [all vs t fun w hw => by have := mem_size hw; simp; omega]
  case tup.tuple vs ts => exact each vs ts fun w hw => by have := mem_size hw; simp; omega
  case set.set vs t => rw [all vs t fun w hw => by have := mem_size hw; simp; omega]; rfl
  case map.map kvs _ t => rw [vals kvs t fun p hp => by have := mem_size_kv hp; simp; omega]
  case dict.dict kvs t => exact vals kvs t fun p hp => by have := mem_size_kv hp; simp; omega
  case alt.variant i w ts => exact ⟨fun ⟨t, h1, h2⟩ => ⟨t, h1, (ih w (by simp; omega) t).1 h2⟩, fun ⟨t, h1, h2⟩ => ⟨t, h1, (ih w (by simp; omega) t).2 h2⟩⟩
  case obj.cls vs c => exact members vs _ fun w hw => by simp; omega
  case uptr.uptr w t => exact ih w (by simp) t
  case sptr.sptr a w t => rw [ih w (by simp; omega) t]

mutual
theorem iterating_shows (env : Env) (o) {v : Val} {t : Ty} {pos : List Nat} {j : Json} {tr : List Occ} : Shows (env.iterating o) v t pos j tr → Shows env v t pos j tr
  | .prim h => .prim (by rwa [iterating_serPrim] at h)
  | .vec h => .vec (iterating_items env o h)
  | .arr h => .arr (iterating_items env o h)
  | .tuple h => .tuple (iterating_items env o h)
  | .set h => .set (iterating_items env o h)
  | .map h1 h2 h3 => .map h1 h2 (iterating_vals env o h3)
  | .dict h => .dict (iterating_vals env o h)
  | .alt h1 h2 => .alt h1 (iterating_shows env o h2)
  | .cls h => .cls (iterating_showsMembers env o h)
  | .uptr h => .uptr (iterating_shows env o h)
  | .full h => .full (iterating_shows env o h)
  | .ref => .ref

theorem iterating_items (env : Env) (o) {vs : List Val} {ts : List Ty} {pos : List Nat} {k : Nat} {js : List Json} {tr : List Occ} :
    ShowsItems (env.iterating o) vs ts pos k js tr → ShowsItems env vs ts pos k js tr
  | .nil => .nil
  | .cons h1 h2 => .cons (iterating_shows env o h1) (iterating_items env o h2)

theorem iterating_vals (env : Env) (o) {kvs : List (Str × Val)} {t : Ty} {pos : List Nat} {k : Nat} {js : List (Str × Json)} {tr : List Occ} :
    ShowsVals (env.iterating o) kvs t pos k js tr → ShowsVals env kvs t pos k js tr
  | .nil => .nil
  | .cons h1 h2 => .cons (iterating_shows env o h1) (iterating_vals env o h2)

theorem iterating_showsMembers (env : Env) (o) {vs : List Val} {ms : List Member} {pos : List Nat} {k : Nat} {js : List (Str × Json)} {tr : List Occ} :
    ShowsMembers (env.iterating o) vs ms pos k js tr → ShowsMembers env vs ms pos k js tr
  | .nil => .nil
  | .skip h1 h2 => .skip h1 (iterating_showsMembers env o h2)
  | .engaged h1 h2 h3 => .engaged h1 (iterating_shows env o h2) (iterating_showsMembers env o h3)
  | .plain h1 h2 h3 => .plain h1 (iterating_shows env o h2) (iterating_showsMembers env o h3)
end

/-! ## The reader -/

theorem iterating_same (env : Env) (o) (t : Ty) (exc : Bool) (fs : List DesFn) : ∀ k loc segs st,
    runSame (env.iterating o) t exc fs k loc segs st = runSame env t exc fs k loc segs st := by
  induction fs with
  | nil => intros; rfl
  | cons f fs ih => intro k loc segs st; simp only [runSame, ih]; rfl

theorem iterating_tuple (env : Env) (o) (exc : Bool) (fs : List DesFn) : ∀ ts targets k loc segs st,
    runTuple (env.iterating o) exc fs ts targets k loc segs st = runTuple env exc fs ts targets k loc segs st := by
  induction fs with
  | nil => intros; simp only [runTuple]
  | cons f fs ih =>
    intro ts
    cases ts with
    | nil => intros; simp only [runTuple]
    | cons t ts => intro targets k loc segs st; simp only [runTuple, ih]; rfl

theorem iterating_entries (env : Env) (o) (t : Ty) (exc : Bool) (fs : List (Str × DesFn)) : ∀ k loc segs st,
    runEntries (env.iterating o) t exc fs k loc segs st = runEntries env t exc fs k loc segs st := by
  induction fs with
  | nil => intros; rfl
  | cons f fs ih => intro k loc segs st; simp only [runEntries, ih]; rfl

theorem iterating_run (env : Env) (o) (exc : Bool) (fs : List (Str × DesFn)) (loc : Loc) (segs : List Seg) (ms : List Member) : ∀ targets res st,
    runMembers (env.iterating o) exc fs loc segs ms targets res st = runMembers env exc fs loc segs ms targets res st := by
  induction ms with
  | nil => intros; rfl
  | cons m ms ih => intro targets res st; simp only [runMembers, ih]; rfl

theorem iterating_desPrim (env : Env) (o) (k : Prim) (j : Json) : desPrim (env.iterating o) k j = desPrim env k j := by
  unfold desPrim
  rfl

mutual
theorem iterating_node (env : Env) (o) (root j : Json) (items : List DesFn) (fields : List (Str × DesFn)) : ∀ (t : Ty) exc target loc segs st,
    node (env.iterating o) root j items fields t exc target loc segs st = node env root j items fields t exc target loc segs st
  | .prim p, exc, target, loc, segs, st => by simp only [node, iterating_desPrim]
  | .vec t, exc, target, loc, segs, st => by simp only [node, iterating_same]
  | .arr n t, exc, target, loc, segs, st => by simp only [node, iterating_same]
  | .set t, exc, target, loc, segs, st => by simp only [node, iterating_same]; rfl
  | .map _ t, exc, target, loc, segs, st => by simp only [node, iterating_entries]
  | .dict t, exc, target, loc, segs, st => by simp only [node, iterating_same]
  | .tuple ts, exc, target, loc, segs, st => by simp only [node, iterating_tuple]
  | .variant ts, exc, target, loc, segs, st => by simp only [node, iterating_alternatives env o root j items fields ts]
  | .cls c, exc, target, loc, segs, st => by simp only [node, iterating_run]; rfl
  | .uptr t, exc, target, loc, segs, st => by simp only [node, iterating_node env o root j items fields t]; rfl
  | .sptr t, exc, target, loc, segs, st => by simp only [node, iterating_node env o root j items fields t]; rfl

theorem iterating_alternatives (env : Env) (o) (root j : Json) (items : List DesFn) (fields : List (Str × DesFn)) : ∀ (ts : List Ty) i loc segs st,
    alternatives (env.iterating o) root j items fields ts i loc segs st = alternatives env root j items fields ts i loc segs st
  | [], i, loc, segs, st => by simp only [alternatives]
  | t :: ts, i, loc, segs, st => by
      simp only [alternatives, iterating_node env o root j items fields t, iterating_alternatives env o root j items fields ts]; rfl
end

mutual
/-- Reading does not depend on the order of iteration. -/
theorem iterating_deser (env : Env) (o) (root : Json) : ∀ j, deser (env.iterating o) root j = deser env root j
  | .null | .bool _ | .num _ | .str _ => by funext exc t target loc segs st; simp only [deser, iterating_node]
  | .arr js => by funext exc t target loc segs st; simp only [deser, iterating_node, iterating_deserItems env o root js]
  | .obj ms => by funext exc t target loc segs st; simp only [deser, iterating_node, iterating_deserFields env o root ms]

theorem iterating_deserItems (env : Env) (o) (root : Json) : ∀ js, deserItems (env.iterating o) root js = deserItems env root js
  | [] => by simp only [deserItems]
  | j :: js => by simp only [deserItems, iterating_deser env o root j, iterating_deserItems env o root js]

theorem iterating_deserFields (env : Env) (o) (root : Json) : ∀ ms, deserFields (env.iterating o) root ms = deserFields env root ms
  | [] => by simp only [deserFields]
  | (k, j) :: ms => by simp only [deserFields, iterating_deser env o root j, iterating_deserFields env o root ms]
end

theorem iterating_topKeys (env : Env) (o) : ∀ v t, topKeys (env.iterating o) v t = topKeys env v t := by
  apply Val.strong
  intro v ih t
  cases v <;> cases t <;> simp only [topKeys]
  case alt.variant i w ts =>
    cases ts[i]? with
    | none => rfl
    | some t => exact ih w (by simp; omega) t
  case obj.cls => rfl
  case uptr.uptr w t => exact ih w (by simp) t

theorem iterating_rejects (env : Env) (o) (t : Ty) (j : Json) (h : Rejects env t j) : Rejects (env.iterating o) t j := by
  intro root loc segs st
  rw [iterating_deser]
  exact h root loc segs st

theorem iterating_readable (env : Env) (o) : ∀ v t, Readable env v t → Readable (env.iterating o) v t := by
  apply Val.strong
  intro v ih t hr
  have all : ∀ (vs : List Val) (t : Ty), (∀ w ∈ vs, sizeOf w < sizeOf v) → ReadableAll env vs t → ReadableAll (env.iterating o) vs t := by
    intro vs t h
    rw [ReadableAll_iff, ReadableAll_iff]
    exact fun h' w hw => ih w (h w hw) t (h' w hw)
  have each : ∀ (vs : List Val) (ts : List Ty), (∀ w ∈ vs, sizeOf w < sizeOf v) → Readables env vs ts → Readables (env.iterating o) vs ts := by
    intro vs
    induction vs with
    | nil => intro ts _ _; cases ts <;> simp [Readables]
    | cons w vs ih' =>
      intro ts h hr
      cases ts with
      | nil => simp [Readables]
      | cons t ts =>
        simp only [Readables] at hr ⊢
        exact ⟨ih w (h w (by simp)) t hr.1, ih' ts (fun w hw => h w (by simp [hw])) hr.2⟩
  have members : ∀ (vs : List Val) (ms : List Member), (∀ w : Val, sizeOf w < 1 + sizeOf vs → sizeOf w < sizeOf v) →
      ReadableMembers env vs ms → ReadableMembers (env.iterating o) vs ms := by
    intro vs
    induction vs with
    | nil => intro ms _ _; rw [ReadableMembers.eq_def]; trivial
    | cons w vs ih' =>
      intro ms h hr
      cases ms with
      | nil => rw [ReadableMembers.eq_def]; trivial
      | cons m ms =>
        have hs : ∀ u : Val, sizeOf u < 1 + sizeOf vs → sizeOf u < sizeOf v := fun u hu => h u (by simp; omega)
        rw [ReadableMembers.eq_def] at hr ⊢
        refine ⟨?_, ih' ms hs hr.2⟩
        have h0 := hr.1
        clear hr ih'
        cases w with
        | absent => trivial
        | present u => exact ih u (h u (by simp; omega)) m.ty h0
        | _ => exact ih _ (h _ (by simp; omega)) m.ty h0
  cases v <;> cases t <;> simp only [Readable] at hr ⊢
  case prim.prim => exact hr
  case seq.vec vs t => exact all vs t (fun w hw => by have := mem_size hw; simp; omega) hr
  case tup.arr vs n t => exact all vs t (fun w hw => by have := mem_size hw; simp; omega) hr
  case tup.tuple vs ts => exact each vs ts (fun w hw => by have := mem_size hw; simp; omega) hr
  case set.set vs t => exact ⟨hr.1, all vs t (fun w hw => by have := mem_size hw; simp; omega) hr.2⟩
  case map.map kvs _ t =>
    rw [ReadableVals_iff] at hr ⊢
    exact fun p hp => ⟨(hr p hp).1, ih p.2 (by have := mem_size_kv hp; simp; omega) t (hr p hp).2⟩
  case alt.variant i w ts =>
    obtain ⟨t, h1, h2, h3⟩ := hr
    exact ⟨t, h1, ih w (by simp; omega) t h2, fun k t' hk ht pos j tr hs => iterating_rejects env o t' j (h3 k t' hk ht pos j tr (iterating_shows env o hs))⟩
  case obj.cls vs c => exact members vs _ (fun w hw => by simp; omega) hr
  case uptr.uptr w t => exact ih w (by simp) t hr
  case sptr.sptr a w t => exact ⟨hr.1, by rw [iterating_topKeys]; exact hr.2.1, ih w (by simp; omega) t hr.2.2⟩

/-! ## Two documents of one value -/

/-- The entries are shown by the members, one by one, without references. -/
inductive Pairs (env : Env) (t : Ty) : List (Str × Val) → List (Str × Json) → Prop
  | nil : Pairs env t [] []
  | cons {k v j kvs js pos tr} : Shows env v t pos j tr → NoRefs tr → Pairs env t kvs js → Pairs env t ((k, v) :: kvs) ((k, j) :: js)

theorem pairs_of {env : Env} {t : Ty} {kvs : List (Str × Val)} : ∀ {pos k js tr}, ShowsVals env kvs t pos k js tr → NoRefs tr → Pairs env t kvs js := by
  induction kvs with
  | nil => intro pos k js tr h _; cases h; exact .nil
  | cons p kvs ih =>
    intro pos k js tr h hn
    cases h with
    | cons h1 h2 => exact .cons h1 hn.left (ih h2 hn.right)

theorem Pairs.keys {env : Env} {t : Ty} {kvs : List (Str × Val)} {js : List (Str × Json)} (h : Pairs env t kvs js) : js.map (·.1) = kvs.map (·.1) := by
  induction h with
  | nil => rfl
  | cons _ _ _ ih => simp [ih]

theorem Pairs.perm {env : Env} {t : Ty} {kvs kvs' : List (Str × Val)} (hp : kvs.Perm kvs') : ∀ {js}, Pairs env t kvs js →
    ∃ ms, js.Perm ms ∧ Pairs env t kvs' ms := by
  induction hp with
  | nil => intro js h; cases h; exact ⟨[], .refl _, .nil⟩
  | cons x _ ih =>
    intro js h
    cases h with
    | cons h1 h2 h3 =>
      obtain ⟨ms, h4, h5⟩ := ih h3
      exact ⟨_, h4.cons _, .cons h1 h2 h5⟩
  | swap x y l =>
    intro js h
    cases h with
    | cons h1 h2 h3 =>
      cases h3 with
      | cons h4 h5 h6 => exact ⟨_, List.Perm.swap _ _ _, .cons h4 h5 (.cons h1 h2 h6)⟩
  | trans _ _ ih1 ih2 =>
    intro js h
    obtain ⟨ms, h1, h2⟩ := ih1 h
    obtain ⟨ms', h3, h4⟩ := ih2 h2
    exact ⟨ms', h1.trans h3, h4⟩

/-- Two documents of the same value, both without references, differ in the order of members only. -/
theorem shows_permuted (env : Env) (H : Heap) : ∀ v t pos pos' j j' tr tr', HasTy env H v t → Shows env v t pos j tr → Shows env v t pos' j' tr' →
    NoRefs tr → NoRefs tr' → Permuted j j' := by
  apply Val.strong
  intro v ih t pos pos' j j' tr tr' hty h h' hn hn'
  have items : ∀ (vs : List Val), (∀ w ∈ vs, sizeOf w < sizeOf v) → ∀ ts pos pos' k k' js js' tr tr', HasTys env H vs ts → ShowsItems env vs ts pos k js tr →
      ShowsItems env vs ts pos' k' js' tr' → NoRefs tr → NoRefs tr' → PermutedAll js js' := by
    intro vs
    induction vs with
    | nil => intro _ ts pos pos' k k' js js' tr tr' _ h h' _ _; cases h; cases h'; exact .nil
    | cons w vs ih' =>
      intro hs ts pos pos' k k' js js' tr tr' hty h h' hn hn'
      cases h with
      | cons h1 h2 =>
        cases h' with
        | cons h1' h2' =>
          exact .cons (ih w (hs w (by simp)) _ _ _ _ _ _ _ hty.1 h1 h1' hn.left hn'.left)
            (ih' (fun w hw => hs w (by simp [hw])) _ _ _ _ _ _ _ _ _ hty.2 h2 h2' hn.right hn'.right)
  have pairs : ∀ (kvs : List (Str × Val)) (t : Ty), (∀ p ∈ kvs, sizeOf p.2 < sizeOf v) → (∀ p ∈ kvs, HasTy env H p.2 t) → ∀ js js', Pairs env t kvs js →
      Pairs env t kvs js' → PermutedFields js js' := by
    intro kvs t
    induction kvs with
    | nil => intro _ _ js js' h h'; cases h; cases h'; exact .nil
    | cons p kvs ih' =>
      intro hs hty js js' h h'
      cases h with
      | cons h1 h2 h3 =>
        cases h' with
        | cons h1' h2' h3' =>
          exact .cons (ih _ (hs _ (List.mem_cons_self)) _ _ _ _ _ _ _ (hty _ (List.mem_cons_self)) h1 h1' h2 h2')
            (ih' (fun p hp => hs p (by simp [hp])) (fun p hp => hty p (by simp [hp])) _ _ h3 h3')
  have members : ∀ (vs : List Val), (∀ w : Val, sizeOf w < 1 + sizeOf vs → sizeOf w < sizeOf v) → ∀ ms pos pos' k k' js js' tr tr', MembersTy env H vs ms →
      ShowsMembers env vs ms pos k js tr → ShowsMembers env vs ms pos' k' js' tr' → NoRefs tr → NoRefs tr' → PermutedFields js js' := by
    intro vs
    induction vs with
    | nil => intro _ ms pos pos' k k' js js' tr tr' _ h h' _ _; cases h; cases h'; exact .nil
    | cons w vs ih' =>
      intro hs ms pos pos' k k' js js' tr tr' hty h h' hn hn'
      have hs' : ∀ u : Val, sizeOf u < 1 + sizeOf vs → sizeOf u < sizeOf v := fun u hu => hs u (by simp; omega)
      cases ms with
      | nil => cases h
      | cons m ms =>
      have hty := (MembersTy_cons env H w vs m ms).1 hty
      have here : ∀ u, fieldOf m.kind w = .here u → HasTy env H u m.ty := fun u hu => by have := hty.1; rwa [hu] at this
      cases h with
      | skip h1 h2 =>
        cases h' with
        | skip h1' h2' => exact ih' hs' _ _ _ _ _ _ _ _ _ hty.2 h2 h2' hn hn'
        | plain h1' => exact absurd h1 h1'
      | @engaged u _ _ _ _ _ _ _ _ _ h1 h2 h3 =>
        cases h' with
        | engaged h1' h2' h3' =>
          exact .cons (ih u (hs u (by simp; omega)) _ _ _ _ _ _ _ (here u (by rw [h1]; rfl)) h2 h2' hn.left hn'.left)
            (ih' hs' _ _ _ _ _ _ _ _ _ hty.2 h3 h3' hn.right hn'.right)
        | plain h1' => exact absurd h1 h1'
      | plain h1 h2 h3 =>
        cases h' with
        | skip h1' => exact absurd h1' h1
        | engaged h1' => exact absurd h1' h1
        | plain _ h2' h3' =>
          have hw : fieldOf m.kind w = .here w := by cases hk : m.kind <;> first | exact absurd hk h1 | (cases w <;> rfl)
          exact .cons (ih w (hs w (by simp; omega)) _ _ _ _ _ _ _ (here w hw) h2 h2' hn.left hn'.left)
            (ih' hs' _ _ _ _ _ _ _ _ _ hty.2 h3 h3' hn.right hn'.right)
  cases h with
  | prim h =>
    cases h' with
    | prim h' => rw [h] at h'; cases h'; exact .same _
  | @vec vs t _ _ _ h =>
    cases h' with
    | vec h' => exact .arr (items vs (fun w hw => by have := mem_size hw; simp; omega) _ _ _ _ _ _ _ _ _ (HasTys_replicate env H vs t hty) h h' hn hn')
  | @arr vs n t _ _ _ h =>
    cases h' with
    | arr h' =>
      have h0 : HasTys env H vs (List.replicate n t) := by rw [← hty.1]; exact HasTys_replicate env H vs t hty.2
      exact .arr (items vs (fun w hw => by have := mem_size hw; simp; omega) _ _ _ _ _ _ _ _ _ h0 h h' hn hn')
  | @tuple vs ts _ _ _ h =>
    cases h' with
    | tuple h' => exact .arr (items vs (fun w hw => by have := mem_size hw; simp; omega) _ _ _ _ _ _ _ _ _ hty h h' hn hn')
  | @set vs t _ _ _ h =>
    cases h' with
    | set h' => exact .arr (items vs (fun w hw => by have := mem_size hw; simp; omega) _ _ _ _ _ _ _ _ _ (HasTys_replicate env H vs t hty.1) h h' hn hn')
  | @map kvs l _ t _ _ _ hp _ h =>
    cases h' with
    | @map _ l' _ _ _ _ _ hp' _ h' =>
      have hnd : (kvs.map (·.1)).Nodup := hty.2.nodup
      have ht := (ValsTy_iff env H kvs t).1 hty.1
      obtain ⟨ms, h1, h2⟩ := (pairs_of h hn).perm (hp.trans hp'.symm)
      refine .obj ?_ h1 (pairs l' t (fun p hq => ?_) (fun p hq => ht p (hp'.mem_iff.1 hq)) _ _ h2 (pairs_of h' hn'))
      · rw [(pairs_of h hn).keys]
        exact ((hp.map _).nodup_iff).2 hnd
      · have := mem_size_kv (hp'.mem_iff.1 hq)
        simp; omega
  | @dict kvs t _ _ _ h =>
    cases h' with
    | dict h' =>
      exact .fields (pairs kvs t (fun p hq => by have := mem_size_kv hq; simp; omega) ((ValsTy_iff env H kvs t).1 hty) _ _ (pairs_of h hn) (pairs_of h' hn'))
  | @alt i w ts t _ _ _ h1 h2 =>
    cases h' with
    | alt h1' h2' =>
      rw [h1] at h1'
      cases h1'
      obtain ⟨t', h3, h4⟩ := hty
      rw [h1] at h3
      cases h3
      exact ih w (by simp; omega) _ _ _ _ _ _ _ h4 h2 h2' hn hn'
  | @cls vs c _ _ _ h =>
    cases h' with
    | cls h' => exact .fields (members vs (fun w hw => by simp; omega) _ _ _ _ _ _ _ _ _ hty h h' hn hn')
  | @uptr w t _ _ _ h =>
    cases h' with
    | uptr h' => exact ih w (by simp) _ _ _ _ _ _ _ hty h h' hn hn'
  | @full a w t _ _ _ h =>
    cases h' with
    | full h' => exact ih w (by simp; omega) _ _ _ _ _ _ _ hty.2 h h' hn.left hn'.left
    | ref => exact absurd (List.mem_singleton.2 rfl) (hn' _ _)
  | ref => exact absurd (List.mem_singleton.2 rfl) (hn _ _)

end Verif.Core
