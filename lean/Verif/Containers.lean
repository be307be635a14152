import Verif.RoundTrip

/-!
# Sets and maps as read from a document
-/

namespace Verif.Core

/-! ## Sets -/

/-- A strict order on values (`std::less` of the element type). -/
structure StrictLess (less : Val → Val → Bool) : Prop where
  irrefl : ∀ x, less x x = false
  trans : ∀ x y z, less x y = true → less y z = true → less x z = true

/-- In strictly ascending order. -/
abbrev SortedBy (less : Val → Val → Bool) (s : List Val) : Prop := s.Pairwise fun x y => less x y = true

theorem mem_setInsert {less : Val → Val → Bool} {x z : Val} {s : List Val} (h : z ∈ setInsert less x s) : z = x ∨ z ∈ s := by
  induction s with
  | nil => simpa [setInsert] using h
  | cons y s ih =>
    simp only [setInsert] at h
    split at h
    · rcases List.mem_cons.1 h with rfl | h
      · simp
      · rcases ih h with h | h <;> simp [h]
    · split at h
      · simpa using h
      · exact .inr h

theorem setInsert_keeps {less : Val → Val → Bool} {x z : Val} {s : List Val} (h : z ∈ s) : z ∈ setInsert less x s := by
  induction s with
  | nil => cases h
  | cons y s ih =>
    simp only [setInsert]
    split
    · rcases List.mem_cons.1 h with rfl | h
      · simp
      · simp [ih h]
    · split
      · exact List.mem_cons_of_mem _ h
      · exact h

theorem setInsert_covers {less : Val → Val → Bool} (hi : ∀ x, less x x = false) (x : Val) (s : List Val) :
    ∃ y ∈ setInsert less x s, less x y = false ∧ less y x = false := by
  induction s with
  | nil => exact ⟨x, by simp [setInsert], hi x, hi x⟩
  | cons y s ih =>
    simp only [setInsert]
    split
    · obtain ⟨z, h1, h2⟩ := ih
      exact ⟨z, List.mem_cons_of_mem _ h1, h2⟩
    · split
      · exact ⟨x, by simp, hi x, hi x⟩
      · exact ⟨y, by simp, by grind, by grind⟩

theorem setInsert_sorted {less : Val → Val → Bool} (hl : StrictLess less) {x : Val} {s : List Val} (h : SortedBy less s) :
    SortedBy less (setInsert less x s) := by
  induction s with
  | nil => simp [setInsert, SortedBy]
  | cons y s ih =>
    simp only [SortedBy, List.pairwise_cons] at h
    simp only [setInsert]
    split
    · rename_i hyx
      refine List.Pairwise.cons ?_ (ih h.2)
      intro z hz
      rcases mem_setInsert hz with rfl | hz
      · exact hyx
      · exact h.1 z hz
    · split
      · rename_i hxy
        refine List.Pairwise.cons ?_ (List.Pairwise.cons h.1 h.2)
        intro z hz
        rcases List.mem_cons.1 hz with rfl | hz
        · exact hxy
        · exact hl.trans _ _ _ hxy (h.1 z hz)
      · exact List.Pairwise.cons h.1 h.2

/-- The set of the elements of a list: what a loop with `insert` builds. -/
abbrev setOf (less : Val → Val → Bool) (vs : List Val) : List Val := vs.foldl (fun s v => setInsert less v s) []

theorem setFold {less : Val → Val → Bool} (hl : StrictLess less) (vs : List Val) : ∀ s, SortedBy less s →
    SortedBy less (vs.foldl (fun s v => setInsert less v s) s) ∧
      (∀ z ∈ vs.foldl (fun s v => setInsert less v s) s, z ∈ vs ∨ z ∈ s) ∧
      (∀ z ∈ s, z ∈ vs.foldl (fun s v => setInsert less v s) s) ∧
      ∀ z ∈ vs, ∃ y ∈ vs.foldl (fun s v => setInsert less v s) s, less z y = false ∧ less y z = false := by
  induction vs with
  | nil => intro s h; simpa using h
  | cons v vs ih =>
    intro s h
    obtain ⟨h1, h2, h3, h4⟩ := ih (setInsert less v s) (setInsert_sorted hl h)
    simp only [List.foldl_cons]
    refine ⟨h1, ?_, ?_, ?_⟩
    · intro z hz
      rcases h2 z hz with hz | hz
      · exact .inl (List.mem_cons_of_mem _ hz)
      · rcases mem_setInsert hz with rfl | hz
        · exact .inl (List.mem_cons_self ..)
        · exact .inr hz
    · exact fun z hz => h3 z (setInsert_keeps hz)
    · intro z hz
      rcases List.mem_cons.1 hz with rfl | hz
      · obtain ⟨y, hy, h5⟩ := setInsert_covers hl.irrefl z s
        exact ⟨y, h3 y hy, h5⟩
      · exact h4 z hz

/-- Two ascending lists with the same elements are equal. -/
theorem sorted_unique {less : Val → Val → Bool} (hl : StrictLess less) : ∀ s s' : List Val, SortedBy less s → SortedBy less s' →
    (∀ x, x ∈ s ↔ x ∈ s') → s = s' := by
  intro s
  induction s with
  | nil =>
    intro s' _ _ h
    cases s' with
    | nil => rfl
    | cons y s' => exact absurd ((h y).2 (by simp)) (by simp)
  | cons x s ih =>
    intro s' hs hs' h
    cases s' with
    | nil => exact absurd ((h x).1 (by simp)) (by simp)
    | cons y s' =>
      simp only [SortedBy, List.pairwise_cons] at hs hs'
      have hxy : x = y := by
        rcases List.mem_cons.1 ((h x).1 (by simp)) with h1 | h1
        · exact h1
        · rcases List.mem_cons.1 ((h y).2 (by simp)) with h2 | h2
          · exact h2.symm
          · have h3 := hl.trans _ _ _ (hs'.1 x h1) (hs.1 y h2)
            rw [hl.irrefl] at h3
            cases h3
      subst hxy
      congr 1
      refine ih s' hs.2 hs'.2 ?_
      intro z
      have hz := h z
      simp only [List.mem_cons] at hz
      constructor
      · intro h1
        rcases hz.1 (.inr h1) with rfl | h2
        · have := hs.1 z h1
          rw [hl.irrefl] at this
          cases this
        · exact h2
      · intro h1
        rcases hz.2 (.inr h1) with rfl | h2
        · have := hs'.1 z h1
          rw [hl.irrefl] at this
          cases this
        · exact h2

/-! ## Maps -/

/-- The value of the last entry with the key. -/
def lastValue {α : Type} (k : Str) : List (Str × α) → Option α
  | [] => none
  | (k', a) :: rest =>
      match lastValue k rest with
      | some b => some b
      | none => if k' = k then some a else none

theorem lookup_mapAssign {α : Type} (k k' : Str) (a : α) (l : List (Str × α)) (h : KeysAsc l) :
    (mapAssign k a l).lookup k' = if k' = k then some a else l.lookup k' := by
  induction l with
  | nil =>
    simp only [mapAssign, List.lookup_cons, List.lookup_nil]
    by_cases hk : k' = k
    · subst hk; simp
    · have : (k' == k) = false := by simpa using hk
      simp [this, hk]
  | cons p l ih =>
    obtain ⟨k1, b⟩ := p
    have hl : KeysAsc l := (List.pairwise_cons.1 h).2
    simp only [mapAssign]
    split
    · rename_i he
      subst he
      simp only [List.lookup_cons]
      by_cases hk : k' = k1
      · subst hk; simp
      · have : (k' == k1) = false := by simpa using hk
        simp [this, hk]
    · rename_i hne
      split
      · simp only [List.lookup_cons, ih hl]
        by_cases hk : k' = k1
        · subst hk; simp [hne]
        · have : (k' == k1) = false := by simpa using hk
          simp [this]
      · rename_i hls
        have hls : strLess k k1 = true := by
          rcases strLess_trichotomy k k1 with h | h | h
          · exact h
          · exact absurd h.symm hne
          · exact absurd h hls
        simp only [List.lookup_cons]
        by_cases hk : k' = k
        · subst hk; simp
        · have : (k' == k) = false := by simpa using hk
          simp [this, hk]

theorem mem_mapAssign {α : Type} {k : Str} {a : α} {l : List (Str × α)} {p : Str × α} (h : p ∈ mapAssign k a l) : p = (k, a) ∨ p ∈ l := by
  induction l with
  | nil => simpa [mapAssign] using h
  | cons q l ih =>
    obtain ⟨k1, b⟩ := q
    simp only [mapAssign] at h
    split at h
    · rcases List.mem_cons.1 h with rfl | h
      · simp
      · exact .inr (List.mem_cons_of_mem _ h)
    · split at h
      · rcases List.mem_cons.1 h with rfl | h
        · simp
        · rcases ih h with h | h
          · exact .inl h
          · exact .inr (List.mem_cons_of_mem _ h)
      · rcases List.mem_cons.1 h with rfl | h
        · simp
        · exact .inr h

theorem mapAssign_asc {α : Type} (k : Str) (a : α) (l : List (Str × α)) (h : KeysAsc l) : KeysAsc (mapAssign k a l) := by
  induction l with
  | nil => simp [mapAssign, KeysAsc]
  | cons p l ih =>
    obtain ⟨k1, b⟩ := p
    have h' := List.pairwise_cons.1 h
    simp only [mapAssign]
    split
    · rename_i he
      subst he
      exact List.Pairwise.cons (fun q hq => h'.1 q hq) h'.2
    · rename_i hne
      split
      · rename_i hls
        refine List.Pairwise.cons ?_ (ih h'.2)
        intro q hq
        rcases mem_mapAssign hq with rfl | hq
        · exact hls
        · exact h'.1 q hq
      · rename_i hls
        have hls : strLess k k1 = true := by
          rcases strLess_trichotomy k k1 with h | h | h
          · exact h
          · exact absurd h.symm hne
          · exact absurd h hls
        refine List.Pairwise.cons ?_ h
        intro q hq
        rcases List.mem_cons.1 hq with rfl | hq
        · exact hls
        · exact strLess_trans _ _ _ hls (h'.1 q hq)

/-- What a loop of assignments `map[key] = value` builds. -/
abbrev mapOf {α : Type} (kvs : List (Str × α)) : List (Str × α) := kvs.foldl (fun s p => mapAssign p.1 p.2 s) []

theorem mapFold {α : Type} (kvs : List (Str × α)) : ∀ s, KeysAsc s →
    KeysAsc (kvs.foldl (fun s p => mapAssign p.1 p.2 s) s) ∧
      ∀ k, (kvs.foldl (fun s p => mapAssign p.1 p.2 s) s).lookup k = (lastValue k kvs).or (s.lookup k) := by
  induction kvs with
  | nil => intro s h; exact ⟨h, fun k => by simp [lastValue]⟩
  | cons p kvs ih =>
    obtain ⟨k1, a⟩ := p
    intro s h
    obtain ⟨h1, h2⟩ := ih (mapAssign k1 a s) (mapAssign_asc k1 a s h)
    refine ⟨h1, fun k => ?_⟩
    simp only [List.foldl_cons, h2 k, lookup_mapAssign k1 k a s h, lastValue]
    cases lastValue k kvs with
    | some b => simp
    | none =>
      by_cases hk : k = k1
      · subst hk; simp
      · simp [hk, Ne.symm hk]

theorem mapOf_asc {α : Type} (kvs : List (Str × α)) : KeysAsc (mapOf kvs) := (mapFold kvs [] (by simp [KeysAsc])).1

theorem mapOf_lookup {α : Type} (kvs : List (Str × α)) (k : Str) : (mapOf kvs).lookup k = lastValue k kvs := by
  rw [(mapFold kvs [] (by simp [KeysAsc])).2 k]
  simp

theorem lookup_isSome {α : Type} (k : Str) (l : List (Str × α)) : (l.lookup k).isSome ↔ k ∈ l.map (·.1) := by
  induction l with
  | nil => simp
  | cons p l ih =>
    obtain ⟨k1, a⟩ := p
    simp only [List.lookup_cons, List.map_cons, List.mem_cons]
    by_cases hk : k = k1
    · subst hk; simp
    · have : (k == k1) = false := by simpa using hk
      simp [this, hk, ih]

theorem lastValue_isSome {α : Type} (k : Str) (l : List (Str × α)) : (lastValue k l).isSome ↔ k ∈ l.map (·.1) := by
  induction l with
  | nil => simp [lastValue]
  | cons p l ih =>
    obtain ⟨k1, a⟩ := p
    simp only [lastValue, List.map_cons, List.mem_cons]
    cases h : lastValue k l with
    | some b => rw [h] at ih; simp only [Option.isSome_some, true_iff] at ih; simp [ih]
    | none =>
      rw [h] at ih
      simp only [Option.isSome_none, Bool.false_eq_true, false_iff] at ih
      by_cases hk : k1 = k
      · simp [hk]
      · simp [hk, Ne.symm hk, ih]

theorem mapOf_keys {α : Type} (kvs : List (Str × α)) (k : Str) : k ∈ (mapOf kvs).map (·.1) ↔ k ∈ kvs.map (·.1) := by
  rw [← lookup_isSome, mapOf_lookup, lastValue_isSome]

/-! ## Successful loops -/

/-- A successful loop over array elements has read each of them. -/
theorem runSame_done {env : Env} {t : Ty} {exc : Bool} {fs : List DesFn} : ∀ {k : Nat} {loc : Loc} {segs : List Seg} {st st' : DState} {vs : List Val},
    runSame env t exc fs k loc segs st = .done true vs st' →
    vs.length = fs.length ∧ ∀ (i : Nat) (f : DesFn) (v : Val), fs[i]? = some f → vs[i]? = some v →
      ∃ st1 st2, f exc t (env.fresh t) ((k + i) :: loc) (.index (k + i) :: segs) st1 = .done true v st2 := by
  induction fs with
  | nil =>
    intro k loc segs st st' vs h
    simp only [runSame, DRes.done.injEq] at h
    obtain ⟨-, rfl, -⟩ := h
    simp
  | cons f fs ih =>
    intro k loc segs st st' vs h
    simp only [runSame] at h
    split at h
    · cases h
    · cases h
    · simp at h
    · rename_i v st1 hf
      cases h2 : runSame env t exc fs (k + 1) loc segs st1 with
      | ub => simp [h2, DRes.map] at h
      | threw s e => simp [h2, DRes.map] at h
      | done ok vs' st2 =>
        simp only [h2, DRes.map, DRes.done.injEq] at h
        obtain ⟨rfl, rfl, rfl⟩ := h
        obtain ⟨h3, h4⟩ := ih h2
        refine ⟨by simp [h3], ?_⟩
        intro i f' v' hi hv
        cases i with
        | zero =>
          simp only [List.getElem?_cons_zero, Option.some.injEq] at hi hv
          subst hi hv
          exact ⟨st, st1, hf⟩
        | succ i =>
          simp only [List.getElem?_cons_succ] at hi hv
          have := h4 i f' v' hi hv
          rw [show k + (i + 1) = k + 1 + i by omega]
          exact this

/-- A successful loop over the members of an object has read each of them; keys are cut at NUL. -/
theorem runEntries_done {env : Env} {t : Ty} {exc : Bool} {fs : List (Str × DesFn)} : ∀ {k : Nat} {loc : Loc} {segs : List Seg} {st st' : DState}
    {kvs : List (Str × Val)}, runEntries env t exc fs k loc segs st = .done true kvs st' →
    kvs.map (·.1) = fs.map (fun p => cstr p.1) ∧ ∀ (i : Nat) (p : Str × DesFn) (q : Str × Val), fs[i]? = some p → kvs[i]? = some q →
      ∃ st1 st2, p.2 exc t (env.fresh t) ((k + i) :: loc) (Seg.name (cstr p.1) :: segs) st1 = .done true q.2 st2 := by
  induction fs with
  | nil =>
    intro k loc segs st st' kvs h
    simp only [runEntries, DRes.done.injEq] at h
    obtain ⟨-, rfl, -⟩ := h
    simp
  | cons p fs ih =>
    obtain ⟨key, f⟩ := p
    intro k loc segs st st' kvs h
    simp only [runEntries] at h
    split at h
    · cases h
    · cases h
    · simp at h
    · rename_i v st1 hf
      cases h2 : runEntries env t exc fs (k + 1) loc segs st1 with
      | ub => simp [h2, DRes.map] at h
      | threw s e => simp [h2, DRes.map] at h
      | done ok vs' st2 =>
        simp only [h2, DRes.map, DRes.done.injEq] at h
        obtain ⟨rfl, rfl, rfl⟩ := h
        obtain ⟨h3, h4⟩ := ih h2
        refine ⟨by simp [h3], ?_⟩
        intro i f' v' hi hv
        cases i with
        | zero =>
          simp only [List.getElem?_cons_zero, Option.some.injEq] at hi hv
          subst hi hv
          exact ⟨st, st1, hf⟩
        | succ i =>
          simp only [List.getElem?_cons_succ] at hi hv
          have := h4 i f' v' hi hv
          rw [show k + (i + 1) = k + 1 + i by omega]
          exact this

theorem DRes.map_done {α β : Type} {f : α → β} {r : DRes α} {ok : Bool} {b : β} {st : DState} (h : r.map f = .done ok b st) :
    ∃ a, r = .done ok a st ∧ b = f a := by
  cases r with
  | ub => cases h
  | threw => cases h
  | done ok' a st' =>
    simp only [DRes.map, DRes.done.injEq] at h
    obtain ⟨rfl, rfl, rfl⟩ := h
    exact ⟨a, rfl, rfl⟩

theorem DRes.reject_true {α : Type} {exc : Bool} {segs : List Seg} {e : Err} {target a : α} {st st' : DState}
    (h : DRes.reject exc segs e target st = .done true a st') : False := by
  unfold DRes.reject at h
  split at h <;> simp at h

/-- A set read successfully. -/
theorem deser_set_done {env : Env} {root j : Json} {exc : Bool} {t : Ty} {target w : Val} {loc : Loc} {segs : List Seg} {st st' : DState}
    (h : deser env root j exc (.set t) target loc segs st = .done true w st') :
    ∃ js vs, j = .arr js ∧ w = .set (setOf env.less vs) ∧ runSame env t exc (js.map (deser env root)) 0 loc segs st = .done true vs st' := by
  rw [deser_set] at h
  split at h
  · rename_i js
    obtain ⟨vs, h1, h2⟩ := DRes.map_done h
    exact ⟨js, vs, rfl, h2, h1⟩
  · exact (DRes.reject_true h).elim

/-- A map read successfully. -/
theorem deser_map_done {env : Env} {root j : Json} {exc o : Bool} {t : Ty} {target w : Val} {loc : Loc} {segs : List Seg} {st st' : DState}
    (h : deser env root j exc (.map o t) target loc segs st = .done true w st') :
    ∃ ms kvs, j = .obj ms ∧ w = .map (mapOf kvs) ∧
      runEntries env t exc (ms.map fun p => (p.1, deser env root p.2)) 0 loc segs st = .done true kvs st' := by
  rw [deser_map] at h
  split at h
  · rename_i js
    obtain ⟨vs, h1, h2⟩ := DRes.map_done h
    exact ⟨js, vs, rfl, h2, h1⟩
  · exact (DRes.reject_true h).elim

end Verif.Core
