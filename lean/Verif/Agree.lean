import Verif.ParseBack
import Verif.ReadMore

/-!
# The streaming parser and the DOM reader

`agrees`: for ordinary documents (`Common`) the meaning of the parser and the one of the DOM reader coincide.
-/

namespace Verif.Core
open Verif.Numeric Verif.EnumConv

/-! ## Addresses are only used for shared objects -/

/-- Reading takes no address. -/
def Keeps (f : MFn) : Prop := ∀ t, t.unshared = true → ∀ target n v n', f t target n = .yes v n' → n' = n

theorem Means.map_yes {α β : Type} {f : α → β} {m : Means α} {b : β} {n : Nat} : m.map f = .yes b n ↔ ∃ a, m = .yes a n ∧ f a = b := by
  cases m with
  | yes a k =>
    simp only [Means.map, Means.yes.injEq]
    constructor
    · rintro ⟨h, rfl⟩; exact ⟨a, ⟨rfl, rfl⟩, h⟩
    · rintro ⟨a', ⟨rfl, rfl⟩, h⟩; exact ⟨h, rfl⟩
  | _ => simp [Means.map]

theorem Means.bind_yes {α β : Type} {k : α → Nat → Means β} {m : Means α} {b : β} {n : Nat} : m.bind k = .yes b n ↔ ∃ a n', m = .yes a n' ∧ k a n' = .yes b n := by
  cases m <;> simp [Means.bind]

theorem keeps_many (env : Env) (t : Ty) (ht : t.unshared = true) (fs : List MFn) (h : ∀ f ∈ fs, Keeps f) :
    ∀ n vs n', manyM env t fs n = .yes vs n' → n' = n := by
  induction fs with
  | nil => intro n vs n' h; simp only [manyM, Means.yes.injEq] at h; exact h.2.symm
  | cons f fs ih =>
    intro n vs n' hm
    rw [manyM, Means.bind_yes] at hm
    obtain ⟨v, n1, h1, h2⟩ := hm
    rw [Means.map_yes] at h2
    obtain ⟨us, h2, -⟩ := h2
    have := h f (by simp) t ht _ _ _ _ h1
    subst this
    exact ih (fun f hf => h f (by simp [hf])) _ _ _ h2

theorem keeps_each (env : Env) (fs : List MFn) (h : ∀ f ∈ fs, Keeps f) :
    ∀ ts, (∀ t ∈ ts, t.unshared = true) → ∀ targets n vs n', eachM env fs ts targets n = .yes vs n' → n' = n := by
  induction fs with
  | nil =>
    intro ts _ targets n vs n' h
    cases ts with
    | nil => simp only [eachM, Means.yes.injEq] at h; exact h.2.symm
    | cons => simp [eachM] at h
  | cons f fs ih =>
    intro ts ht targets n vs n' hm
    cases ts with
    | nil => simp [eachM] at hm
    | cons t ts =>
      rw [eachM, Means.bind_yes] at hm
      obtain ⟨v, n1, h1, h2⟩ := hm
      rw [Means.map_yes] at h2
      obtain ⟨us, h2, -⟩ := h2
      have := h f (by simp) t (ht t (by simp)) _ _ _ _ h1
      subst this
      exact ih (fun f hf => h f (by simp [hf])) ts (fun t h => ht t (by simp [h])) _ _ _ _ h2

theorem keeps_entries (env : Env) (t : Ty) (ht : t.unshared = true) (fs : List (Str × MFn)) (h : ∀ p ∈ fs, Keeps p.2) :
    ∀ kvs n vs n', entriesM env t fs kvs n = .yes vs n' → n' = n := by
  induction fs with
  | nil => intro kvs n vs n' h; simp only [entriesM, Means.yes.injEq] at h; exact h.2.symm
  | cons p fs ih =>
    intro kvs n vs n' hm
    obtain ⟨k, f⟩ := p
    rw [entriesM, Means.bind_yes] at hm
    obtain ⟨v, n1, h1, h2⟩ := hm
    have := h (k, f) (by simp) t ht _ _ _ _ h1
    subst this
    exact ih (fun f hf => h f (by simp [hf])) _ _ _ _ h2

theorem keeps_members (env : Env) (ms : List Member) (hm : ∀ m ∈ ms, m.ty.unshared = true) (fs : List (Str × MFn)) (h : ∀ p ∈ fs, Keeps p.2) :
    ∀ vs n ws n', membersM env ms fs vs n = .yes ws n' → n' = n := by
  induction fs with
  | nil => intro kvs n vs n' h; simp only [membersM, Means.yes.injEq] at h; exact h.2.symm
  | cons p fs ih =>
    intro vs n ws n' hr
    obtain ⟨k, f⟩ := p
    rw [membersM] at hr
    split at hr
    · cases hr
    · split at hr
      · cases hr
      · rename_i i _ m hi
        have hmem := hm m (List.mem_of_getElem? hi)
        split at hr
        all_goals
          rw [Means.bind_yes] at hr
          obtain ⟨v, n1, h1, h2⟩ := hr
          have := h (k, f) (by simp) m.ty hmem _ _ _ _ h1
          subst this
          exact ih (fun f hf => h f (by simp [hf])) _ _ _ _ h2

theorem keeps_node (env : Env) (hu : env.Unshared) (j : Json) (items : List MFn) (fields : List (Str × MFn)) (hi : ∀ f ∈ items, Keeps f)
    (hf : ∀ p ∈ fields, Keeps p.2) : ∀ t, t.unshared = true → ∀ target n v n', nodeM env j items fields t target n = .yes v n' → n' = n
  | .prim p, _, _, n, v, n', h => by
      simp only [nodeM] at h
      split at h <;> simp_all
  | .vec t, ht, target, n, v, n', h => by
      simp only [nodeM] at h
      split at h
      · obtain ⟨vs, h, -⟩ := Means.map_yes.1 h
        exact keeps_many env t ht items hi _ _ _ h
      · cases h
  | .arr k t, ht, target, n, v, n', h => by
      simp only [nodeM] at h
      split at h
      · obtain ⟨vs, h, -⟩ := Means.map_yes.1 h
        exact keeps_each env items hi _ (fun t' h' => by rw [(List.mem_replicate.1 h').2]; exact ht) _ _ _ _ h
      · cases h
  | .set t, ht, target, n, v, n', h => by
      simp only [nodeM] at h
      split at h
      · obtain ⟨vs, h, -⟩ := Means.map_yes.1 h
        exact keeps_many env t ht items hi _ _ _ h
      · cases h
  | .map o t, ht, target, n, v, n', h => by
      simp only [nodeM] at h
      split at h
      · obtain ⟨vs, h, -⟩ := Means.map_yes.1 h
        exact keeps_entries env t ht fields hf _ _ _ _ h
      · cases h
  | .dict t, ht, target, n, v, n', h => by
      simp only [nodeM] at h
      split at h
      · obtain ⟨vs, h, -⟩ := Means.map_yes.1 h
        exact keeps_many env _ (by simpa [Ty.unshared, Ty.unshareds] using ht) items hi _ _ _ h
      · cases h
  | .tuple ts, ht, target, n, v, n', h => by
      simp only [nodeM] at h
      split at h
      · obtain ⟨vs, h, -⟩ := Means.map_yes.1 h
        exact keeps_each env items hi _ ((Ty.unshareds_iff ts).1 ht) _ _ _ _ h
      · cases h
  | .variant ts, _, _, _, _, _, h => by simp [nodeM] at h
  | .cls c, _, target, n, v, n', h => by
      simp only [nodeM] at h
      split at h
      · obtain ⟨vs, h, -⟩ := Means.map_yes.1 h
        exact keeps_members env _ (hu c) fields hf _ _ _ _ h
      · cases h
  | .uptr t, ht, target, n, v, n', h => by
      simp only [nodeM] at h
      obtain ⟨w, h, -⟩ := Means.map_yes.1 h
      exact keeps_node env hu j items fields hi hf t ht _ _ _ _ h
  | .sptr t, ht, _, _, _, _, _ => by simp [Ty.unshared] at ht

/-- Without shared objects no address is used. -/
theorem keeps (env : Env) (hu : env.Unshared) : ∀ j, Keeps (meaning env j) := by
  apply Json.induct
  · intro j h1 h2 t ht
    cases j with
    | arr js => exact absurd rfl (h1 js)
    | obj ms => exact absurd rfl (h2 ms)
    | _ => rw [meaning]; exact keeps_node env hu _ [] [] (by simp) (by simp) t ht
  · intro js ih t ht
    rw [meaning]
    refine keeps_node env hu _ _ [] ?_ (by simp) t ht
    rw [meaningItems_eq]
    intro f hf
    obtain ⟨j, hj, rfl⟩ := List.mem_map.1 hf
    exact ih j hj
  · intro ms ih t ht
    rw [meaning]
    refine keeps_node env hu _ [] _ (by simp) ?_ t ht
    rw [meaningFields_eq]
    intro f hf
    obtain ⟨p, hp, rfl⟩ := List.mem_map.1 hf
    exact ih p hp

/-! ## Ordinary documents -/

/-- The differences between the readers play no role: objects of classes have each key once, only known keys, and
all members except optional ones; objects of maps have no NUL in keys, and each key once (unless reading a value again
overwrites it); numbers for floating-point members are in the range that the parser accepts. -/
structure Common (env : Env) (t : Ty) (j : Json) : Prop where
  objects : ∀ c fields, Part env t j (.cls c) (.obj fields) → (fields.map (·.1)).Nodup ∧ (∀ k ∈ fields.map (·.1), k ∈ (env.members c).map (·.name)) ∧
    ∀ m ∈ env.members c, m.kind ≠ .optional → m.name ∈ fields.map (·.1)
  maps : ∀ o t' fields, Part env t j (.map o t') (.obj fields) → (∀ k ∈ fields.map (·.1), 0 ∉ k) ∧ ((fields.map (·.1)).Nodup ∨ ∀ v, Blank env t' v)
  floats : ∀ f x, Part env t j (.prim (.flt f)) (.num x) → floatMeaning f x ≠ none

theorem Common.child {env : Env} {t t' : Ty} {j j' : Json} (h : Common env t j) (hc : Child env t j t' j') : Common env t' j' :=
  ⟨fun c fields hp => h.objects c fields (Part.of_child hc hp), fun o t' fields hp => h.maps o t' fields (Part.of_child hc hp),
    fun f x hp => h.floats f x (Part.of_child hc hp)⟩

/-! ## Agreement -/

/-- The parser and the DOM reader agree about the meaning. -/
def Agrees (env : Env) (j : Json) (t : Ty) : Prop :=
  ∀ target target' n v n', Blank env t target → (meaning env j t target n = .yes v n' ↔ n' = n ∧ Decodes env t j target' v)

theorem floatMeaning_some (f : FltTy) (x : JsonNum) (h : floatMeaning f x ≠ none) : floatMeaning f x = some (x.getDouble.round f) := by
  cases x with
  | int v =>
    simp only [floatMeaning] at h ⊢
    split at h
    · rename_i hv
      rw [if_pos hv]
      have hd : v.natAbs < 2 ^ FltTy.double.digits := by
        refine Nat.lt_of_lt_of_le hv (Nat.pow_le_pow_right (by decide) ?_)
        cases f <;> decide
      have : (JsonNum.int v).getDouble = Flt.ofInt v := castInt_exact .double v hd
      rw [this, round_fits f _ (ofInt_fits f v hv)]
    · exact absurd rfl h
  | dbl d =>
    simp only [floatMeaning] at h ⊢
    cases f with
    | double => rfl
    | float =>
      simp only at h ⊢
      split at h
      · rename_i hd; rw [if_pos hd]; rfl
      · exact absurd rfl h

theorem agree_leaf (env : Env) (p : Prim) (j : Json) (h : Common env (.prim p) j) (pv : PVal) : leafMeaning env p j = .ok pv ↔ LeafReads env p j pv := by
  have hother : (match desPrim env p j with | .ub => LeafParse.ub | .reject _ => .fail | .ok pv => .ok pv) = .ok pv ↔ LeafReads env p j pv := by
    rw [← desPrim_ok]
    cases desPrim env p j <;> simp
  unfold leafMeaning
  split
  · rename_i f x
    rw [floatMeaning_some f x (h.floats f x .self)]
    constructor
    · intro h; simp only [LeafParse.ok.injEq] at h; subst h; exact .flt f x
    · intro h; cases h; rfl
  · exact hother

theorem agree_many (env : Env) (hc : env.BlankCtor) (t : Ty) (js : List Json) (h : ∀ j ∈ js, Agrees env j t) :
    ∀ n vs n', manyM env t (meaningItems env js) n = .yes vs n' ↔ n' = n ∧ DecodesAll env t js vs := by
  induction js with
  | nil =>
    intro n vs n'
    simp only [meaningItems, manyM, Means.yes.injEq]
    constructor
    · rintro ⟨rfl, rfl⟩; exact ⟨rfl, .nil t⟩
    · rintro ⟨rfl, hd⟩; cases hd; exact ⟨rfl, rfl⟩
  | cons j js ih =>
    intro n vs n'
    rw [meaningItems, manyM, Means.bind_yes]
    constructor
    · rintro ⟨v, n1, h1, h2⟩
      obtain ⟨us, h3, rfl⟩ := Means.map_yes.1 h2
      obtain ⟨rfl, h4⟩ := (h j (by simp) _ (env.fresh t) _ _ _ (hc t)).1 h1
      obtain ⟨rfl, h5⟩ := (ih (fun j hj => h j (by simp [hj])) _ _ _).1 h3
      exact ⟨rfl, .cons _ _ _ _ _ h4 h5⟩
    · rintro ⟨rfl, hd⟩
      cases hd with
      | cons _ _ _ v us h1 h2 =>
        exact ⟨v, n', (h j (by simp) _ (env.fresh t) _ _ _ (hc t)).2 ⟨rfl, h1⟩, Means.map_yes.2 ⟨us, (ih (fun j hj => h j (by simp [hj])) _ _ _).2 ⟨rfl, h2⟩, rfl⟩⟩

theorem agree_each (env : Env) (js : List Json) : ∀ (ts : List Ty), (∀ (i : Nat) (t : Ty) (j : Json), ts[i]? = some t → js[i]? = some j → Agrees env j t) →
    ∀ targets targets' n vs n', (∀ (i : Nat) (t : Ty) (u : Val), ts[i]? = some t → (fit env ts targets)[i]? = some u → Blank env t u) →
      (eachM env (meaningItems env js) ts targets n = .yes vs n' ↔ n' = n ∧ DecodesEach env ts js targets' vs) := by
  induction js with
  | nil =>
    intro ts _ targets targets' n vs n' _
    cases ts with
    | nil =>
      simp only [meaningItems, eachM, Means.yes.injEq]
      constructor
      · rintro ⟨rfl, rfl⟩; exact ⟨rfl, .nil _⟩
      · rintro ⟨rfl, hd⟩; cases hd; exact ⟨rfl, rfl⟩
    | cons t ts =>
      simp only [meaningItems, eachM]
      constructor
      · intro h; cases h
      · rintro ⟨-, hd⟩; cases hd
  | cons j js ih =>
    intro ts h targets targets' n vs n' hb
    cases ts with
    | nil =>
      simp only [meaningItems, eachM]
      constructor
      · intro h; cases h
      · rintro ⟨-, hd⟩; cases hd
    | cons t ts =>
      have ih' := fun tg' n vs n' => ih ts (fun i t j h1 h2 => h (i + 1) t j (by simpa using h1) (by simpa using h2)) targets.tail tg' n vs n'
        (fun i t u h h' => hb (i + 1) t u (by simpa using h) (by simpa [fit] using h'))
      have h0 := fun tg' n v n' => h 0 t j rfl rfl (targets.headD (env.ctor t)) tg' n v n' (hb 0 t _ rfl rfl)
      rw [meaningItems, eachM, Means.bind_yes]
      constructor
      · rintro ⟨v, n1, h1, h2⟩
        obtain ⟨us, h3, rfl⟩ := Means.map_yes.1 h2
        obtain ⟨rfl, h4⟩ := (h0 (targets'.headD (env.fresh t)) _ _ _).1 h1
        obtain ⟨rfl, h5⟩ := (ih' targets'.tail _ _ _).1 h3
        exact ⟨rfl, .cons _ _ _ _ _ _ _ h4 h5⟩
      · rintro ⟨rfl, hd⟩
        cases hd with
        | cons _ _ _ _ _ v us h1 h2 =>
          exact ⟨v, n', (h0 _ _ _ _).2 ⟨rfl, h1⟩, Means.map_yes.2 ⟨us, (ih' _ _ _ _).2 ⟨rfl, h2⟩, rfl⟩⟩

/-- Components of the same type. -/
theorem agree_array (env : Env) (t : Ty) (js : List Json) (h : ∀ j ∈ js, Agrees env j t) : ∀ (k : Nat) targets n vs n',
    (∀ u ∈ fit env (List.replicate k t) targets, Blank env t u) →
      (eachM env (meaningItems env js) (List.replicate k t) targets n = .yes vs n' ↔ n' = n ∧ js.length = k ∧ DecodesAll env t js vs) := by
  induction js with
  | nil =>
    intro k targets n vs n' _
    cases k with
    | zero =>
      simp only [List.replicate_zero, meaningItems, eachM, Means.yes.injEq]
      constructor
      · rintro ⟨rfl, rfl⟩; exact ⟨rfl, rfl, .nil _⟩
      · rintro ⟨rfl, -, hd⟩; cases hd; exact ⟨rfl, rfl⟩
    | succ k =>
      simp only [List.replicate_succ, meaningItems, eachM]
      constructor
      · intro h; cases h
      · rintro ⟨-, hd, -⟩; simp at hd
  | cons j js ih =>
    intro k targets n vs n' hb
    cases k with
    | zero =>
      simp only [List.replicate_zero, meaningItems, eachM]
      constructor
      · intro h; cases h
      · rintro ⟨-, hd, -⟩; simp at hd
    | succ k =>
      rw [List.replicate_succ] at hb ⊢
      have ih' := fun n vs n' => ih (fun j hj => h j (by simp [hj])) k targets.tail n vs n' (fun u hu => hb u (by simp [fit, hu]))
      have h0 := fun n v n' => h j (by simp) (targets.headD (env.ctor t)) (env.fresh t) n v n' (hb _ (by simp [fit]))
      rw [meaningItems, eachM, Means.bind_yes]
      constructor
      · rintro ⟨v, n1, h1, h2⟩
        obtain ⟨us, h3, rfl⟩ := Means.map_yes.1 h2
        obtain ⟨rfl, h4⟩ := (h0 _ _ _).1 h1
        obtain ⟨rfl, h5, h6⟩ := (ih' _ _ _).1 h3
        exact ⟨rfl, by simp [h5], .cons _ _ _ _ _ h4 h6⟩
      · rintro ⟨rfl, hl, hd⟩
        cases hd with
        | cons _ _ _ v us h1 h2 =>
          exact ⟨v, n', (h0 _ _ _).2 ⟨rfl, h1⟩, Means.map_yes.2 ⟨us, (ih' _ _ _).2 ⟨rfl, by simpa using hl, h2⟩, rfl⟩⟩

theorem agree_entries (env : Env) (hc : env.BlankCtor) (t : Ty) (ms : List (Str × Json)) (h : ∀ p ∈ ms, Agrees env p.2 t) (hz : ∀ k ∈ ms.map (·.1), 0 ∉ k) :
    ∀ acc n kvs' n', ((ms.map (·.1)).Nodup ∧ (∀ k ∈ ms.map (·.1), k ∉ acc.map (·.1))) ∨ (∀ v, Blank env t v) →
      (entriesM env t (meaningFields env ms) acc n = .yes kvs' n' ↔
        n' = n ∧ ∃ kvs, DecodesEntries env t ms kvs ∧ kvs' = kvs.foldl (fun s p => mapAssign p.1 p.2 s) acc) := by
  induction ms with
  | nil =>
    intro acc n kvs' n' _
    simp only [meaningFields, entriesM, Means.yes.injEq]
    constructor
    · rintro ⟨rfl, rfl⟩; exact ⟨rfl, [], .nil t, rfl⟩
    · rintro ⟨rfl, kvs, hd, rfl⟩; cases hd; exact ⟨rfl, rfl⟩
  | cons p ms ih =>
    intro acc n kvs' n' hacc
    obtain ⟨k, j⟩ := p
    have hbl : Blank env t ((acc.lookup k).getD (env.ctor t)) := by
      rcases hacc with ⟨-, hacc⟩ | hacc
      · rw [lookup_none_of k acc (hacc k (by simp))]; exact hc t
      · exact hacc _
    have h0 := fun n v n' => h (k, j) (by simp) ((acc.lookup k).getD (env.ctor t)) (env.fresh t) n v n' hbl
    have hz0 : cstr k = k := cstr_eq k (hz k (by simp))
    have ih' := fun w n kvs' n' => ih (fun p hp => h p (by simp [hp])) (fun k hk => hz k (by simp only [List.map_cons, List.mem_cons]; exact .inr hk)) (mapAssign k w acc) n kvs' n' (by
      rcases hacc with ⟨hn, hacc⟩ | hacc
      · left
        simp only [List.map_cons, List.nodup_cons] at hn
        refine ⟨hn.2, fun k' hk' => ?_⟩
        rw [mapAssign_keys]
        rintro (rfl | h)
        · exact hn.1 hk'
        · exact hacc k' (by simp only [List.map_cons, List.mem_cons]; exact .inr hk') h
      · exact .inr hacc)
    rw [meaningFields, entriesM, Means.bind_yes]
    constructor
    · rintro ⟨v, n1, h1, h2⟩
      obtain ⟨rfl, h4⟩ := (h0 _ _ _).1 h1
      obtain ⟨rfl, kvs, h5, rfl⟩ := (ih' _ _ _ _).1 h2
      exact ⟨rfl, (cstr k, v) :: kvs, .cons _ _ _ _ _ _ h4 h5, by rw [List.foldl_cons, hz0]⟩
    · rintro ⟨rfl, kvs, hd, rfl⟩
      cases hd with
      | cons _ _ _ _ v us h1 h2 =>
        exact ⟨v, n', (h0 _ _ _).2 ⟨rfl, h1⟩, (ih' _ _ _ _).2 ⟨rfl, us, h2, by rw [List.foldl_cons, hz0]⟩⟩

/-! ### Members of classes -/

theorem memberAt_known (ms : List Member) (hd : (ms.map (·.name)).Nodup) (k : Str) (hk : k ∈ ms.map (·.name)) :
    ∃ i m, memberAt ms k = some i ∧ ms[i]? = some m ∧ m.name = k := by
  obtain ⟨m, hm, rfl⟩ := List.mem_map.1 hk
  obtain ⟨pre, post, rfl⟩ := List.append_of_mem hm
  exact ⟨pre.length, m, memberAt_at pre m post hd, by simp, rfl⟩

theorem name_inj {ms : List Member} (hd : (ms.map (·.name)).Nodup) {i i' : Nat} {m m' : Member} (h : ms[i]? = some m) (h' : ms[i']? = some m')
    (he : m.name = m'.name) : i = i' := by
  obtain ⟨hi, -⟩ := List.getElem?_eq_some_iff.1 h
  exact (List.getElem?_inj (l := ms.map (·.name)) (by simpa using hi) hd).1 (by simp [h, h', he])

theorem lookup_some_mem {α : Type} {k : Str} {l : List (Str × α)} {a : α} (h : l.lookup k = some a) : (k, a) ∈ l := by
  induction l with
  | nil => cases h
  | cons p l ih =>
    obtain ⟨k', a'⟩ := p
    rw [List.lookup_cons] at h
    by_cases hk : k = k'
    · subst hk; simp at h; subst h; simp
    · rw [beq_eq_false_iff_ne.2 hk] at h
      exact List.mem_cons_of_mem _ (ih h)

/-- What the parser does with one member: initial value `u`, final value `w`. -/
def InMember (env : Env) (fields : List (Str × Json)) (n : Nat) (m : Member) (u w : Val) : Prop :=
  match fields.lookup m.name with
  | some x => if m.kind = .optional then ∃ v, meaning env x m.ty (env.ctor m.ty) n = .yes v n ∧ w = .present v
      else meaning env x m.ty u n = .yes w n
  | none => w = u

theorem membersM_iff (env : Env) (hu : env.Unshared) (ms : List Member) (ht : ∀ m ∈ ms, m.ty.unshared = true) (hd : (ms.map (·.name)).Nodup)
    (fields : List (Str × Json)) (hn : (fields.map (·.1)).Nodup) (hk : ∀ k ∈ fields.map (·.1), k ∈ ms.map (·.name)) :
    ∀ vs n ws n', vs.length = ms.length → (membersM env ms (meaningFields env fields) vs n = .yes ws n' ↔
      n' = n ∧ ws.length = ms.length ∧ ∀ (i : Nat) m u w, ms[i]? = some m → vs[i]? = some u → ws[i]? = some w → InMember env fields n m u w) := by
  induction fields with
  | nil =>
    intro vs n ws n' hl
    simp only [meaningFields, membersM, Means.yes.injEq]
    constructor
    · rintro ⟨rfl, rfl⟩
      refine ⟨rfl, hl, fun i m u w _ h1 h2 => ?_⟩
      rw [h1] at h2
      cases h2
      rfl
    · rintro ⟨rfl, hl', h⟩
      refine ⟨List.ext_getElem? fun i => ?_, rfl⟩
      by_cases hi : i < ms.length
      · have h1 : vs[i]? = some vs[i] := List.getElem?_eq_getElem (by omega)
        have h2 : ws[i]? = some ws[i] := List.getElem?_eq_getElem (by omega)
        have := h i ms[i] vs[i] ws[i] (List.getElem?_eq_getElem hi) h1 h2
        rw [h1, h2]
        simp only [InMember, List.lookup_nil] at this
        rw [this]
      · rw [List.getElem?_eq_none (by omega), List.getElem?_eq_none (by omega)]
  | cons p fields ih =>
    intro vs n ws n' hl
    obtain ⟨k, x⟩ := p
    simp only [List.map_cons, List.nodup_cons] at hn
    obtain ⟨i0, m0, hat, hget, hname⟩ := memberAt_known ms hd k (hk k (by simp))
    have hi0 : i0 < ms.length := (List.getElem?_eq_some_iff.1 hget).1
    have hm0 : m0 ∈ ms := List.mem_of_getElem? hget
    have ih' := fun vs n ws n' => ih hn.2 (fun k hk' => hk k (by simp only [List.map_cons, List.mem_cons]; exact .inr hk')) vs n ws n'
    have hnone : fields.lookup k = none := lookup_none_of k fields hn.1
    have hlook0 : ((k, x) :: fields).lookup m0.name = some x := by rw [hname]; simp
    have hlook : ∀ (i : Nat) m, ms[i]? = some m → i ≠ i0 → ((k, x) :: fields).lookup m.name = fields.lookup m.name := by
      intro i m hm hne
      rw [List.lookup_cons, beq_eq_false_iff_ne.2]
      intro he
      exact hne (name_inj hd hm hget (he.trans hname.symm))
    -- one step
    have step : ∀ w0 : Val, (membersM env ms (meaningFields env fields) (vs.set i0 w0) n = .yes ws n' ↔
        n' = n ∧ ws.length = ms.length ∧ ws[i0]? = some w0 ∧
          ∀ (i : Nat) m u w, i ≠ i0 → ms[i]? = some m → vs[i]? = some u → ws[i]? = some w → InMember env ((k, x) :: fields) n m u w) := by
      intro w0
      rw [ih' _ n ws n' (by simpa using hl)]
      constructor
      · rintro ⟨rfl, hl', h⟩
        refine ⟨rfl, hl', ?_, ?_⟩
        · have h2 : ws[i0]? = some ws[i0] := List.getElem?_eq_getElem (by omega)
          have := h i0 m0 w0 ws[i0] hget (by rw [List.getElem?_set_self (by omega)]) h2
          rw [InMember, hname, hnone] at this
          rw [h2, this]
        · intro i m u w hne hm hu' hw
          have := h i m u w hm (by rwa [List.getElem?_set_ne (Ne.symm hne)]) hw
          rw [InMember, hlook i m hm hne]
          exact this
      · rintro ⟨rfl, hl', h0, h⟩
        refine ⟨rfl, hl', fun i m u w hm hu' hw => ?_⟩
        by_cases hne : i = i0
        · subst hne
          rw [hget] at hm
          cases hm
          rw [List.getElem?_set_self (by omega)] at hu'
          rw [h0] at hw
          cases hu'
          cases hw
          rw [InMember, hname, hnone]
        · rw [List.getElem?_set_ne (Ne.symm hne)] at hu'
          have := h i m u w hne hm hu' hw
          rw [InMember, hlook i m hm hne] at this
          exact this
    have hv0 : vs[i0]? = some (vs.getD i0 (env.ctor m0.ty)) := by
      rw [List.getD_eq_getElem?_getD, List.getElem?_eq_getElem (by omega)]; rfl
    rw [meaningFields, membersM]
    simp only [hat, hget]
    by_cases hopt : m0.kind = .optional
    · rw [if_pos hopt, Means.bind_yes]
      constructor
      · rintro ⟨v, n1, h1, h2⟩
        have := keeps env hu x m0.ty (ht m0 hm0) _ _ _ _ h1
        subst this
        obtain ⟨rfl, hl', h0, h⟩ := (step _).1 h2
        refine ⟨rfl, hl', fun i m u w hm hu' hw => ?_⟩
        by_cases hne : i = i0
        · subst hne
          rw [hget] at hm
          cases hm
          rw [h0] at hw
          cases hw
          rw [InMember, hlook0]
          simp only [if_pos hopt]
          exact ⟨v, h1, rfl⟩
        · exact h i m u w hne hm hu' hw
      · rintro ⟨rfl, hl', h⟩
        have h2 : ws[i0]? = some ws[i0] := List.getElem?_eq_getElem (by omega)
        have h3 := h i0 m0 _ _ hget hv0 h2
        rw [InMember, hlook0] at h3
        simp only [if_pos hopt] at h3
        obtain ⟨v, h3, h4⟩ := h3
        refine ⟨v, n', h3, (step _).2 ⟨rfl, hl', by rw [h2, h4], fun i m u w _ => h i m u w⟩⟩
    · rw [if_neg hopt, Means.bind_yes]
      constructor
      · rintro ⟨v, n1, h1, h2⟩
        have := keeps env hu x m0.ty (ht m0 hm0) _ _ _ _ h1
        subst this
        obtain ⟨rfl, hl', h0, h⟩ := (step _).1 h2
        refine ⟨rfl, hl', fun i m u w hm hu' hw => ?_⟩
        by_cases hne : i = i0
        · subst hne
          rw [hget] at hm
          cases hm
          rw [h0] at hw
          cases hw
          rw [hv0] at hu'
          cases hu'
          rw [InMember, hlook0]
          simp only [if_neg hopt]
          exact h1
        · exact h i m u w hne hm hu' hw
      · rintro ⟨rfl, hl', h⟩
        have h2 : ws[i0]? = some ws[i0] := List.getElem?_eq_getElem (by omega)
        have h3 := h i0 m0 _ _ hget hv0 h2
        rw [InMember, hlook0] at h3
        simp only [if_neg hopt] at h3
        exact ⟨ws[i0], n', h3, (step _).2 ⟨rfl, hl', h2, fun i m u w _ => h i m u w⟩⟩

/-- What the DOM reader does with one member. -/
def OutMember (env : Env) (fields : List (Str × Json)) (m : Member) (w : Val) : Prop :=
  match fields.lookup m.name with
  | some x => if m.kind = .optional then ∃ v, (∀ target, Decodes env m.ty x target v) ∧ w = .present v else ∀ target, Decodes env m.ty x target w
  | none => w = .absent

theorem findMember_lookup {fields : List (Str × Json)} {k : Str} {x : Json} (h : fields.lookup k = some x) : ∃ i, findMember k fields = some (i, x) := by
  rw [← findMember_value, Option.map_eq_some_iff] at h
  obtain ⟨⟨i, y⟩, h1, rfl⟩ := h
  exact ⟨i, h1⟩

theorem findMember_lookup_none {fields : List (Str × Json)} {k : Str} (h : fields.lookup k = none) : findMember k fields = none := by
  rwa [← findMember_value, Option.map_eq_none_iff] at h

theorem lookup_findMember {fields : List (Str × Json)} {k : Str} {x : Json} {i : Nat} (h : findMember k fields = some (i, x)) : fields.lookup k = some x := by
  rw [← findMember_value, h]; rfl

theorem lookup_findMember_none {fields : List (Str × Json)} {k : Str} (h : findMember k fields = none) : fields.lookup k = none := by
  rw [← findMember_value, h]; rfl

theorem decodesMembers_iff (env : Env) (fields : List (Str × Json)) (ms : List Member) (hp : ∀ m ∈ ms, m.kind ≠ .optional → fields.lookup m.name ≠ none)
    (hany : ∀ m ∈ ms, ∀ x, fields.lookup m.name = some x → ∀ tg tg' v, Decodes env m.ty x tg v → Decodes env m.ty x tg' v) :
    ∀ targets ws, DecodesMembers env fields ms targets ws ↔
      ws.length = ms.length ∧ ∀ (i : Nat) m w, ms[i]? = some m → ws[i]? = some w → OutMember env fields m w := by
  induction ms with
  | nil =>
    intro targets ws
    constructor
    · intro h; cases h; simp
    · rintro ⟨hl, -⟩
      have : ws = [] := by simpa using hl
      subst this
      exact .nil _ _
  | cons m ms ih =>
    intro targets ws
    have ih' := ih (fun m hm => hp m (by simp [hm])) (fun m hm => hany m (by simp [hm])) targets.tail
    have hpm := hp m (by simp)
    have hanym := hany m (by simp)
    constructor
    · intro h
      have split : ∀ w us, ws = w :: us → OutMember env fields m w → DecodesMembers env fields ms targets.tail us →
          ws.length = (m :: ms).length ∧ ∀ (i : Nat) m' w, (m :: ms)[i]? = some m' → ws[i]? = some w → OutMember env fields m' w := by
        rintro w us rfl h0 h
        obtain ⟨h1, h2⟩ := (ih' us).1 h
        refine ⟨by simp [h1], fun i m' w' hm hw => ?_⟩
        cases i with
        | zero => simp only [List.getElem?_cons_zero, Option.some.injEq] at hm hw; subst hm; subst hw; exact h0
        | succ i => exact h2 i m' w' (by simpa using hm) (by simpa using hw)
      cases h with
      | present _ _ _ _ i j v vs hf hk hd hr =>
        refine split v vs rfl ?_ hr
        have hl := lookup_findMember hf
        rw [OutMember, hl]
        simp only [if_neg hk]
        exact fun tg => hanym j hl _ tg v hd
      | some _ _ _ _ i j v vs hf hk hd hr =>
        refine split _ vs rfl ?_ hr
        have hl := lookup_findMember hf
        rw [OutMember, hl]
        simp only [if_pos hk]
        exact ⟨v, fun tg => hanym j hl _ tg v hd, rfl⟩
      | none _ _ _ _ vs hf hk hr =>
        refine split _ vs rfl ?_ hr
        rw [OutMember, lookup_findMember_none hf]
      | keep _ _ _ _ vs hf hk hr =>
        exact absurd (lookup_findMember_none hf) (hpm (by rw [hk]; decide))
    · rintro ⟨hl, h⟩
      cases ws with
      | nil => simp at hl
      | cons w ws =>
        have h0 := h 0 m w rfl rfl
        have hr := (ih' ws).2 ⟨by simpa using hl, fun i m w hm hw => h (i + 1) m w (by simpa using hm) (by simpa using hw)⟩
        rw [OutMember] at h0
        cases hx : fields.lookup m.name with
        | none =>
          rw [hx] at h0
          simp only at h0
          subst h0
          have hk : m.kind = .optional := Classical.byContradiction fun hk => hpm hk hx
          exact .none _ _ _ _ _ (findMember_lookup_none hx) hk hr
        | some x =>
          rw [hx] at h0
          obtain ⟨i, hf⟩ := findMember_lookup hx
          by_cases hk : m.kind = .optional
          · simp only [if_pos hk] at h0
            obtain ⟨v, h0, rfl⟩ := h0
            exact .some _ _ _ _ i x v ws hf hk (h0 _) hr
          · simp only [if_neg hk] at h0
            exact .present _ _ _ _ i x w ws hf hk (h0 _) hr

/-- The type is without shared pointers, and can be parsed. -/
structure Simple (G : Nat → Prop) (t : Ty) : Prop where
  unshared : t.unshared = true
  streams : Streamable G t

theorem streamableAll_iff (G : Nat → Prop) (ts : List Ty) : StreamableAll G ts ↔ ∀ t ∈ ts, Streamable G t := by
  induction ts with
  | nil => simp [StreamableAll]
  | cons t ts ih => simp [StreamableAll, ih]

/-- The parser and the DOM reader agree on ordinary documents. -/
theorem agrees (env : Env) (hu : env.Unshared) (G : Nat → Prop) (hG : StreamableClasses env G) (hdist : env.DistinctNames) (hc : env.BlankCtor) :
    ∀ j t, Simple G t → Common env t j → Agrees env j t := by
  apply lexInd
  intro j t ihj iht hs hcom target target' n v n' hb
  have arr_size : ∀ {js : List Json} {x : Json}, x ∈ js → sizeOf x < sizeOf (Json.arr js) := by
    intro js x hx
    have := List.sizeOf_lt_of_mem hx
    simp only [Json.arr.sizeOf_spec]; omega
  have obj_size : ∀ {ms : List (Str × Json)} {p : Str × Json}, p ∈ ms → sizeOf p.2 < sizeOf (Json.obj ms) := by
    intro ms p hp
    have h1 := List.sizeOf_lt_of_mem hp
    have : sizeOf p = 1 + sizeOf p.1 + sizeOf p.2 := by cases p; rfl
    simp only [Json.obj.sizeOf_spec]; omega
  cases t with
  | prim p =>
    have : meaning env j (.prim p) target n = match leafMeaning env p j with | .ub => .ub | .fail => .no | .ok pv => .yes (.prim pv) n := by
      cases j <;> simp only [meaning, nodeM] <;> rfl
    rw [this]
    have hl := agree_leaf env p j hcom
    constructor
    · intro h
      cases hm : leafMeaning env p j with
      | ub => simp [hm] at h
      | fail => simp [hm] at h
      | ok pv =>
        simp only [hm, Means.yes.injEq] at h
        obtain ⟨rfl, rfl⟩ := h
        exact ⟨rfl, .prim p j _ pv ((hl pv).1 hm)⟩
    · rintro ⟨rfl, hd⟩
      cases hd with
      | prim _ _ _ pv h => rw [(hl pv).2 h]
  | vec t =>
    have hs' : Simple G t := ⟨hs.1, hs.2.2⟩
    cases j with
    | arr js =>
      have h1 := agree_many env hc t js (fun x hx => ihj x (arr_size hx) t hs' (hcom.child (.vec t js x hx)))
      cases hb with
      | vec _ _ hb =>
        simp only [meaning, nodeM, hb, List.nil_append]
        rw [Means.map_yes]
        constructor
        · rintro ⟨vs, h, rfl⟩
          obtain ⟨rfl, h3⟩ := (h1 _ _ _).1 h
          exact ⟨rfl, .vec t js _ vs h3⟩
        · rintro ⟨rfl, hd⟩
          cases hd with
          | vec _ _ _ vs h => exact ⟨vs, (h1 _ _ _).2 ⟨rfl, h⟩, rfl⟩
    | _ =>
      simp only [meaning, nodeM]
      exact ⟨fun h => (by cases h), fun h => (by cases h.2)⟩
  | arr k t =>
    have hs' : Simple G t := ⟨hs.1, hs.2⟩
    cases j with
    | arr js =>
      cases hb with
      | arr _ _ _ hb =>
        have h1 := fun n vs n' => agree_array env t js (fun x hx => ihj x (arr_size hx) t hs' (hcom.child (.arr k t js x hx))) k target.components n vs n' hb
        simp only [meaning, nodeM]
        rw [Means.map_yes]
        constructor
        · rintro ⟨vs, h, rfl⟩
          obtain ⟨rfl, hl, h⟩ := (h1 _ _ _).1 h
          exact ⟨rfl, .arr k t js _ vs hl h⟩
        · rintro ⟨rfl, hd⟩
          cases hd with
          | arr _ _ _ _ vs hl h => exact ⟨vs, (h1 _ _ _).2 ⟨rfl, hl, h⟩, rfl⟩
    | _ =>
      simp only [meaning, nodeM]
      exact ⟨fun h => (by cases h), fun h => (by cases h.2)⟩
  | set t =>
    have hs' : Simple G t := ⟨hs.1, hs.2.2⟩
    cases j with
    | arr js =>
      have h1 := agree_many env hc t js (fun x hx => ihj x (arr_size hx) t hs' (hcom.child (.set t js x hx)))
      cases hb with
      | set _ _ hb =>
        simp only [meaning, nodeM, hb]
        rw [Means.map_yes]
        constructor
        · rintro ⟨vs, h, rfl⟩
          obtain ⟨rfl, h3⟩ := (h1 _ _ _).1 h
          exact ⟨rfl, .set t js _ vs h3⟩
        · rintro ⟨rfl, hd⟩
          cases hd with
          | set _ _ _ vs h => exact ⟨vs, (h1 _ _ _).2 ⟨rfl, h⟩, rfl⟩
    | _ =>
      simp only [meaning, nodeM]
      exact ⟨fun h => (by cases h), fun h => (by cases h.2)⟩
  | map o t =>
    have hs' : Simple G t := ⟨hs.1, hs.2⟩
    cases j with
    | obj ms =>
      obtain ⟨hz, hn⟩ := hcom.maps o t ms .self
      have h1 := fun n kvs' n' => agree_entries env hc t ms (fun p hp => ihj p.2 (obj_size hp) t hs' (hcom.child (.map o t ms p hp))) hz [] n kvs' n'
        (hn.imp (fun h => ⟨h, by simp⟩) id)
      cases hb with
      | map _ _ _ hb =>
        simp only [meaning, nodeM, hb]
        rw [Means.map_yes]
        constructor
        · rintro ⟨vs, h, rfl⟩
          obtain ⟨rfl, kvs, h3, rfl⟩ := (h1 _ _ _).1 h
          exact ⟨rfl, .map o t ms _ kvs h3⟩
        · rintro ⟨rfl, hd⟩
          cases hd with
          | map _ _ _ _ kvs h => exact ⟨_, (h1 _ _ _).2 ⟨rfl, kvs, h, rfl⟩, rfl⟩
    | _ =>
      simp only [meaning, nodeM]
      exact ⟨fun h => (by cases h), fun h => (by cases h.2)⟩
  | dict t =>
    have hs' : Simple G (.tuple [.prim .str, t]) :=
      ⟨by have := hs.1; simpa [Ty.unshared, Ty.unshareds] using this, rfl, hs.2, trivial⟩
    cases j with
    | arr js =>
      have h1 := agree_many env hc _ js (fun x hx => ihj x (arr_size hx) _ hs' (hcom.child (.dict t js x hx)))
      cases hb with
      | dict _ _ hb =>
        simp only [meaning, nodeM, hb, List.nil_append]
        rw [Means.map_yes]
        constructor
        · rintro ⟨vs, h, rfl⟩
          obtain ⟨rfl, h3⟩ := (h1 _ _ _).1 h
          exact ⟨rfl, .dict t js _ vs h3⟩
        · rintro ⟨rfl, hd⟩
          cases hd with
          | dict _ _ _ vs h => exact ⟨vs, (h1 _ _ _).2 ⟨rfl, h⟩, rfl⟩
    | _ =>
      simp only [meaning, nodeM]
      exact ⟨fun h => (by cases h), fun h => (by cases h.2)⟩
  | tuple ts =>
    have hs' : ∀ t ∈ ts, Simple G t := fun t h => ⟨(Ty.unshareds_iff ts).1 hs.1 t h, (streamableAll_iff G ts).1 hs.2 t h⟩
    cases j with
    | arr js =>
      cases hb with
      | tuple _ _ hb =>
        have h1 := fun n vs n' => agree_each env js ts (fun i t x ht hx => ihj x (arr_size (List.mem_of_getElem? hx)) t (hs' t (List.mem_of_getElem? ht))
          (hcom.child (.tuple ts js i t x ht hx))) target.components target'.components n vs n' hb
        simp only [meaning, nodeM]
        rw [Means.map_yes]
        constructor
        · rintro ⟨vs, h, rfl⟩
          obtain ⟨rfl, h3⟩ := (h1 _ _ _).1 h
          exact ⟨rfl, .tuple ts js _ vs h3⟩
        · rintro ⟨rfl, hd⟩
          cases hd with
          | tuple _ _ _ vs h => exact ⟨vs, (h1 _ _ _).2 ⟨rfl, h⟩, rfl⟩
    | _ =>
      simp only [meaning, nodeM]
      exact ⟨fun h => (by cases h), fun h => (by cases h.2)⟩
  | variant ts => exact hs.2.elim
  | cls c =>
    cases j with
    | obj fields =>
      obtain ⟨hn, hk, hall⟩ := hcom.objects c fields .self
      have hag : ∀ m ∈ env.members c, ∀ x, fields.lookup m.name = some x → Agrees env x m.ty := by
        intro m hm x hx
        obtain ⟨i, hf⟩ := findMember_lookup hx
        exact ihj x (obj_size (lookup_some_mem hx)) m.ty ⟨hu c m hm, (hG c hs.2).2 m hm⟩ (hcom.child (.cls c fields m i x hm hf))
      have hany : ∀ m ∈ env.members c, ∀ x, fields.lookup m.name = some x → ∀ tg tg' v, Decodes env m.ty x tg v → Decodes env m.ty x tg' v := by
        intro m hm x hx tg tg' v hd
        exact ((hag m hm x hx _ tg' 0 v 0 (hc m.ty)).1 ((hag m hm x hx _ tg 0 v 0 (hc m.ty)).2 ⟨rfl, hd⟩)).2
      have hpres : ∀ m ∈ env.members c, m.kind ≠ .optional → fields.lookup m.name ≠ none := by
        intro m hm hkind hnone
        have := findMember_lookup_none hnone
        obtain ⟨p, hp, he⟩ := List.mem_map.1 (hall m hm hkind)
        obtain ⟨i, hf⟩ := findMember_unique hn hp
        rw [he, this] at hf
        cases hf
      cases hb with
      | cls _ _ hb1 hb2 =>
        have hlen := fitMembers_length env (env.members c) target.members
        have h1 := fun n ws n' => membersM_iff env hu (env.members c) (hu c) (hdist c) fields hn hk (fitMembers env (env.members c) target.members) n ws n' hlen
        have h2 := fun ws => decodesMembers_iff env fields (env.members c) hpres hany target'.members ws
        have hsame : ∀ (i : Nat) m u w n, (env.members c)[i]? = some m → (fitMembers env (env.members c) target.members)[i]? = some u →
            (InMember env fields n m u w ↔ OutMember env fields m w) := by
          intro i m u w n hm hu'
          have hmem := List.mem_of_getElem? hm
          rw [InMember, OutMember]
          cases hx : fields.lookup m.name with
          | none =>
            have hkind : m.kind = .optional := Classical.byContradiction fun hk => hpres m hmem hk hx
            simp only
            rw [hb1 i m u hm hu' hkind]
          | some x =>
            simp only
            have hax := hag m hmem x hx
            by_cases hkind : m.kind = .optional
            · simp only [if_pos hkind]
              constructor
              · rintro ⟨v, h, rfl⟩
                exact ⟨v, fun tg => ((hax _ tg n v n (hc m.ty)).1 h).2, rfl⟩
              · rintro ⟨v, h, rfl⟩
                exact ⟨v, (hax _ (env.fresh m.ty) n v n (hc m.ty)).2 ⟨rfl, h _⟩, rfl⟩
            · simp only [if_neg hkind]
              have hbl := hb2 i m u hm hu' hkind
              exact ⟨fun h tg => ((hax _ tg n w n hbl).1 h).2, fun h => (hax _ (env.fresh m.ty) n w n hbl).2 ⟨rfl, h _⟩⟩
        simp only [meaning, nodeM]
        rw [Means.map_yes]
        constructor
        · rintro ⟨ws, h, rfl⟩
          obtain ⟨rfl, hl, h⟩ := (h1 _ _ _).1 h
          refine ⟨rfl, .cls c fields _ ws ((h2 ws).2 ⟨hl, fun i m w hm hw => ?_⟩)⟩
          have hi' : i < (env.members c).length := (List.getElem?_eq_some_iff.1 hm).1
          have hu' : (fitMembers env (env.members c) target.members)[i]? = some (fitMembers env (env.members c) target.members)[i] :=
            List.getElem?_eq_getElem (by omega)
          exact (hsame i m _ w n' hm hu').1 (h i m _ w hm hu' hw)
        · rintro ⟨rfl, hd⟩
          cases hd with
          | cls _ _ _ ws h =>
            obtain ⟨hl, h⟩ := (h2 ws).1 h
            exact ⟨ws, (h1 _ _ _).2 ⟨rfl, hl, fun i m u w hm hu' hw => (hsame i m u w n' hm hu').2 (h i m w hm hw)⟩, rfl⟩
    | _ =>
      simp only [meaning, nodeM]
      exact ⟨fun h => (by cases h), fun h => (by cases h.2)⟩
  | uptr t =>
    have h1 := iht t (by simp) ⟨hs.1, hs.2⟩ (hcom.child (.uptr t j)) (env.ctor t) (env.ctor t)
    rw [meaning_uptr, Means.map_yes]
    constructor
    · rintro ⟨w, h, rfl⟩
      obtain ⟨rfl, h3⟩ := (h1 _ _ _ (hc t)).1 h
      exact ⟨rfl, .uptr t j _ w h3⟩
    · rintro ⟨rfl, hd⟩
      cases hd with
      | uptr _ _ _ w h => exact ⟨w, (h1 _ _ _ (hc t)).2 ⟨rfl, h⟩, rfl⟩
  | sptr t => have := hs.1; simp [Ty.unshared] at this

end Verif.Core
