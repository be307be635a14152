import Verif.Evolve
import Verif.Agree

/-!
# Members that were added or removed: names, the parser, older programs

Documents without the new names (`NoKeys`); the streaming parser; and documents of the newer program that are read by the older one.
-/

namespace Verif.Core
open Verif.Numeric Verif.EnumConv

/-! ## Names -/

theorem NoKeys.item {names : List Str} {js : List Json} (h : NoKeysAll names js) {j : Json} (hj : j ∈ js) : NoKeys names j := by
  induction js with
  | nil => cases hj
  | cons j' js ih =>
    rcases List.mem_cons.1 hj with rfl | hj
    · exact h.1
    · exact ih h.2 hj

theorem NoKeys.field {names : List Str} {ms : List (Str × Json)} (h : NoKeysFields names ms) {p : Str × Json} (hp : p ∈ ms) :
    p.1 ∉ names ∧ NoKeys names p.2 := by
  induction ms with
  | nil => cases hp
  | cons p' ms ih =>
    obtain ⟨k, j⟩ := p'
    rcases List.mem_cons.1 hp with rfl | hp
    · exact ⟨h.1, h.2.1⟩
    · exact ih h.2.2 hp

theorem NoKeys.child {names : List Str} {env : Env} {t t' : Ty} {j j' : Json} {loc loc' : Loc} (h : ChildAt env t j loc t' j' loc') (hn : NoKeys names j) : NoKeys names j' := by
  cases h with
  | vec t js i _ _ h => exact NoKeys.item hn (List.mem_of_getElem? h)
  | arr n t js i _ _ h => exact NoKeys.item hn (List.mem_of_getElem? h)
  | set t js i _ _ h => exact NoKeys.item hn (List.mem_of_getElem? h)
  | dict t js i _ _ h => exact NoKeys.item hn (List.mem_of_getElem? h)
  | map o t ms i p _ h => exact (NoKeys.field hn (List.mem_of_getElem? h)).2
  | tuple ts js i t _ _ h h' => exact NoKeys.item hn (List.mem_of_getElem? h')
  | variant ts _ _ _ h => exact hn
  | cls c ms m i _ _ hm hf => exact (NoKeys.field hn (findMember_mem hf)).2
  | uptr => exact hn
  | sptr => exact hn

theorem Adds.mono {P Q : Member → Prop} (h : ∀ m, P m → Q m) {ms ms' : List Member} (ha : Adds P ms ms') : Adds Q ms ms' := by
  induction ha with
  | nil => exact .nil
  | same m ms ms' _ ih => exact .same _ _ _ ih
  | new m ms ms' hp _ ih => exact .new _ _ _ (h m hp) ih

/-- If the new members may be left out and their names are nowhere in the document, they are not used. -/
theorem unused_of_names {env env' : Env} (names : List Str) (ha : ∀ c, Adds (fun m => m.kind ≠ .required ∧ m.name ∈ names) (env.members c) (env'.members c))
    (t : Ty) (j : Json) (hn : NoKeys names j) : Unused env env' t j := by
  intro c fields hr
  have key : ∀ t' j', Reach env t j t' j' → NoKeys names j' := by
    intro t' j' hr
    induction hr with
    | self => exact hn
    | child t1 j1 loc1 t2 j2 loc2 _ hc ih => exact NoKeys.child hc ih
  have hf := key _ _ hr
  refine (ha c).mono fun m hm => ⟨?_, hm.1⟩
  cases hfm : findMember m.name fields with
  | none => rfl
  | some q => exact absurd hm.2 (NoKeys.field hf (findMember_mem (i := q.1) (a := q.2) hfm)).1

/-! ## The streaming parser -/

/-- The meanings agree but for new members. -/
inductive SimMeans {α β : Type} (R : α → β → Prop) : Means α → Means β → Prop
  | ub : SimMeans R .ub .ub
  | no : SimMeans R .no .no
  | yes (a : α) (b : β) (n : Nat) : R a b → SimMeans R (.yes a n) (.yes b n)

theorem SimMeans.map {α β γ δ : Type} {R : α → β → Prop} {S : γ → δ → Prop} {f : α → γ} {g : β → δ} {m : Means α} {m' : Means β}
    (h : SimMeans R m m') (hf : ∀ a b, R a b → S (f a) (g b)) : SimMeans S (m.map f) (m'.map g) := by
  cases h with
  | ub => exact .ub
  | no => exact .no
  | yes a b n h => exact .yes _ _ _ (hf a b h)

theorem SimMeans.bind {α β γ δ : Type} {R : α → β → Prop} {S : γ → δ → Prop} {f : α → Nat → Means γ} {g : β → Nat → Means δ} {m : Means α} {m' : Means β}
    (h : SimMeans R m m') (hf : ∀ a b n, R a b → SimMeans S (f a n) (g b n)) : SimMeans S (m.bind f) (m'.bind g) := by
  cases h with
  | ub => exact .ub
  | no => exact .no
  | yes a b n h => exact hf a b n h

theorem GrownMembers.mem {env env' : Env} {ms ms' : List Member} {vs vs' : List Val} (h : GrownMembers env env' ms ms' vs vs') {m : Member} (hm : m ∈ ms) : m ∈ ms' := by
  induction vs' generalizing ms ms' vs with
  | nil =>
    cases h
    exact hm
  | cons v' vs' ih =>
    cases h with
    | same m' ms ms' v _ vs _ hk' hv h =>
      rcases List.mem_cons.1 hm with rfl | hm
      · exact List.mem_cons_self
      · exact List.mem_cons_of_mem _ (ih h hm)
    | absent m' ms ms' vs _ hk' h =>
      rcases List.mem_cons.1 hm with rfl | hm
      · exact List.mem_cons_self
      · exact List.mem_cons_of_mem _ (ih h hm)
    | present m' ms ms' v _ vs _ hk' hv h =>
      rcases List.mem_cons.1 hm with rfl | hm
      · exact List.mem_cons_self
      · exact List.mem_cons_of_mem _ (ih h hm)
    | new m' ms ms' _ _ _ h => exact List.mem_cons_of_mem _ (ih h hm)

/-- Values for one member. -/
def GrownSlot (env env' : Env) (m : Member) (w w' : Val) : Prop :=
  if m.kind = .optional then (w = .absent ∧ w' = .absent) ∨ ∃ v v', w = .present v ∧ w' = .present v' ∧ Grown env env' m.ty v v' else Grown env env' m.ty w w'

theorem GrownMembers.slot {env env' : Env} {m : Member} {ms ms' : List Member} {w w' : Val} {vs vs' : List Val} (hw : GrownSlot env env' m w w')
    (h : GrownMembers env env' ms ms' vs vs') : GrownMembers env env' (m :: ms) (m :: ms') (w :: vs) (w' :: vs') := by
  unfold GrownSlot at hw
  split at hw
  · rename_i hk
    rcases hw with ⟨rfl, rfl⟩ | ⟨v, v', rfl, rfl, hv⟩
    · exact .absent _ _ _ _ _ hk h
    · exact .present _ _ _ _ _ _ _ hk hv h
  · rename_i hk
    exact .same _ _ _ _ _ _ _ hk hw h

/-- Inversion: a member that is kept, or a new one. -/
theorem GrownMembers.cases_slot {env env' : Env} {ms ms' : List Member} {vs vs' : List Val} (h : GrownMembers env env' ms ms' vs vs') :
    (ms = [] ∧ ms' = [] ∧ vs = [] ∧ vs' = []) ∨
    (∃ m ms1 ms1' w w' ws ws', ms = m :: ms1 ∧ ms' = m :: ms1' ∧ vs = w :: ws ∧ vs' = w' :: ws' ∧ GrownSlot env env' m w w' ∧ GrownMembers env env' ms1 ms1' ws ws') ∨
    ∃ m ms1' w' ws', ms' = m :: ms1' ∧ vs' = w' :: ws' ∧ GrownMembers env env' ms ms1' vs ws' := by
  cases h with
  | nil => exact .inl ⟨rfl, rfl, rfl, rfl⟩
  | same m ms ms' v v' vs vs' hk hv h => exact .inr (.inl ⟨_, _, _, _, _, _, _, rfl, rfl, rfl, rfl, by rw [GrownSlot, if_neg hk]; exact hv, h⟩)
  | absent m ms ms' vs vs' hk h => exact .inr (.inl ⟨_, _, _, _, _, _, _, rfl, rfl, rfl, rfl, by rw [GrownSlot, if_pos hk]; exact .inl ⟨rfl, rfl⟩, h⟩)
  | present m ms ms' v v' vs vs' hk hv h => exact .inr (.inl ⟨_, _, _, _, _, _, _, rfl, rfl, rfl, rfl, by rw [GrownSlot, if_pos hk]; exact .inr ⟨_, _, rfl, rfl, hv⟩, h⟩)
  | new m ms ms' v' vs vs' h => exact .inr (.inr ⟨_, _, _, _, rfl, rfl, h⟩)

theorem memberAt_cons (m : Member) (ms : List Member) (k : Str) : memberAt (m :: ms) k = if m.name = k then some 0 else (memberAt ms k).map (· + 1) := by
  rw [memberAt, List.findIdx?_cons]
  by_cases h : m.name = k
  · simp [h]
  · simp [h, memberAt]

theorem memberAt_mem {ms : List Member} {k : Str} {i : Nat} (h : memberAt ms k = some i) : ∃ m ∈ ms, m.name = k := by
  rw [memberAt, List.findIdx?_eq_some_iff_getElem] at h
  obtain ⟨hl, hi, -⟩ := h
  exact ⟨_, List.getElem_mem hl, by simpa using hi⟩

/-- Where the values of a member are. -/
theorem GrownMembers.at {env env' : Env} {ms ms' : List Member} {vs vs' : List Val} (h : GrownMembers env env' ms ms' vs vs') (hn : (ms'.map (·.name)).Nodup)
    {k : Str} {i : Nat} (hi : memberAt ms k = some i) : ∃ m i' w w', ms[i]? = some m ∧ memberAt ms' k = some i' ∧ ms'[i']? = some m ∧ vs[i]? = some w ∧ vs'[i']? = some w' ∧
      GrownSlot env env' m w w' ∧ ∀ u u', GrownSlot env env' m u u' → GrownMembers env env' ms ms' (vs.set i u) (vs'.set i' u') := by
  induction ms' generalizing ms vs vs' i with
  | nil =>
    rcases h.cases_slot with ⟨rfl, -, -, -⟩ | ⟨m, ms1, ms1', w, w', ws, ws', -, h, -⟩ | ⟨m, ms1', w', ws', h, -⟩
    · simp [memberAt] at hi
    · cases h
    · cases h
  | cons m' ms' ih =>
    obtain ⟨hm, hn⟩ := List.nodup_cons.1 hn
    rcases h.cases_slot with ⟨-, h, -, -⟩ | ⟨m, ms1, ms1', w, w', ws, ws', rfl, h2, rfl, rfl, hw, h⟩ | ⟨m, ms1', w', ws', h1, rfl, h⟩
    · cases h
    · cases h2
      rw [memberAt_cons] at hi
      by_cases hk : m'.name = k
      · rw [if_pos hk] at hi
        cases hi
        exact ⟨m', 0, w, w', rfl, by rw [memberAt_cons, if_pos hk], rfl, rfl, rfl, hw, fun u u' hu => .slot hu h⟩
      · rw [if_neg hk] at hi
        cases hi1 : memberAt ms1 k with
        | none => rw [hi1] at hi; cases hi
        | some i1 =>
          rw [hi1] at hi
          cases hi
          obtain ⟨m, i', u, u', h1, h2, h3, h4, h5, h6, h7⟩ := ih h hn hi1
          exact ⟨m, i' + 1, u, u', h1, by rw [memberAt_cons, if_neg hk, h2]; rfl, h3, h4, h5, h6, fun x x' hx => .slot hw (h7 x x' hx)⟩
    · cases h1
      obtain ⟨m, i', u, u', h1, h2, h3, h4, h5, h6, h7⟩ := ih h hn hi
      have hk : m'.name ≠ k := by
        intro hk
        obtain ⟨x, hx, hxk⟩ := memberAt_mem hi
        exact hm (List.mem_map.2 ⟨x, h.mem hx, hxk.trans hk.symm⟩)
      exact ⟨m, i' + 1, u, u', h1, by rw [memberAt_cons, if_neg hk, h2]; rfl, h3, h4, h5, h6, fun x x' hx => .new _ _ _ _ _ _ (h7 x x' hx)⟩

theorem memberAt_none {ms : List Member} {k : Str} (h : memberAt ms k = none) : ∀ m ∈ ms, m.name ≠ k := by
  rw [memberAt, List.findIdx?_eq_none_iff] at h
  intro m hm
  simpa using h m hm

theorem Adds.none {names : List Str} {ms ms' : List Member} (ha : Adds (fun m => m.name ∈ names) ms ms') {k : Str} (hk : k ∉ names) (h : memberAt ms k = none) :
    memberAt ms' k = none := by
  induction ha with
  | nil => exact h
  | same m ms ms' _ ih =>
    rw [memberAt_cons] at h ⊢
    by_cases hm : m.name = k
    · rw [if_pos hm] at h; cases h
    · rw [if_neg hm] at h ⊢
      rw [ih (by simpa using h)]
      rfl
  | new m ms ms' hp _ ih =>
    rw [memberAt_cons, if_neg (fun hm => hk (by rw [← hm]; exact hp)), ih h]
    rfl

theorem fitMembers_id (env : Env) (ms : List Member) (vs : List Val) (h : ms.length = vs.length) : fitMembers env ms vs = vs := by
  induction ms generalizing vs with
  | nil => cases vs with
    | nil => rfl
    | cons v vs => cases h
  | cons m ms ih => cases vs with
    | nil => cases h
    | cons v vs => rw [fitMembers, ih _ (by simpa using h)]; rfl

theorem GrownMembers.lengths {env env' : Env} {ms ms' : List Member} {vs vs' : List Val} (h : GrownMembers env env' ms ms' vs vs') :
    ms.length = vs.length ∧ ms'.length = vs'.length := by
  induction ms' generalizing ms vs vs' with
  | nil =>
    rcases h.cases_slot with ⟨rfl, -, rfl, rfl⟩ | ⟨m, ms1, ms1', w, w', ws, ws', -, h, -⟩ | ⟨m, ms1', w', ws', h, -⟩
    · exact ⟨rfl, rfl⟩
    · cases h
    · cases h
  | cons m' ms' ih =>
    rcases h.cases_slot with ⟨-, h, -, -⟩ | ⟨m, ms1, ms1', w, w', ws, ws', rfl, h2, rfl, rfl, hw, h⟩ | ⟨m, ms1', w', ws', h1, rfl, h⟩
    · cases h
    · cases h2
      simpa using ih h
    · cases h1
      have := ih h
      exact ⟨this.1, by simpa using this.2⟩

theorem grown_fit {env env' : Env} (hk : Kin env env') {P : Member → Prop} {c : Nat} (ha : Adds P (env.members c) (env'.members c)) {v v' : Val}
    (h : Grown env env' (.cls c) v v') :
    GrownMembers env env' (env.members c) (env'.members c) (fitMembers env (env.members c) v.members) (fitMembers env' (env'.members c) v'.members) := by
  have empty : ∀ ms ms', Adds P ms ms' → GrownMembers env env' ms ms' (fitMembers env ms []) (fitMembers env' ms' []) := by
    intro ms ms' ha
    induction ha with
    | nil => exact .nil
    | same m ms ms' _ ih =>
      refine .slot ?_ ih
      unfold GrownSlot
      by_cases hm : m.kind = .optional
      · simp [hm]
      · simp only [if_neg hm, List.headD_nil]
        exact hk.ctor _
    | new m ms ms' _ _ ih => exact .new _ _ _ _ _ _ ih
  cases h with
  | inert _ v h =>
    cases v <;> first | exact h.elim | exact empty _ _ ha
  | cls _ vs vs' h =>
    have hl := h.lengths
    rw [Val.members, Val.members, fitMembers_id _ _ _ hl.1, fitMembers_id _ _ _ hl.2]
    exact h

/-- The meanings for the parser are alike. -/
def SimM (env env' : Env) (j : Json) (t : Ty) : Prop := ∀ target target' n, Grown env env' t target target' →
  SimMeans (Grown env env' t) (meaning env j t target n) (meaning env' j t target' n)

theorem sim_many {env env' : Env} (hk : Kin env env') (t : Ty) (P : Val → Prop) (js : List Json) (h : ∀ j ∈ js, SimM env env' j t)
    (hp : ∀ j target n v n', meaning env j t target n = .yes v n' → P v) : ∀ n,
    SimMeans (fun vs vs' => GrownAll env env' t vs vs' ∧ ∀ v ∈ vs, P v) (manyM env t (js.map (meaning env)) n) (manyM env' t (js.map (meaning env')) n) := by
  induction js with
  | nil => intro n; exact .yes _ _ _ ⟨.nil _, by simp⟩
  | cons j js ih =>
    intro n
    simp only [List.map_cons, manyM]
    have h1 := h j List.mem_cons_self _ _ n (hk.ctor t)
    have hp1 := hp j (env.ctor t) n
    generalize meaning env j t (env.ctor t) n = r at h1 hp1
    generalize meaning env' j t (env'.ctor t) n = r' at h1
    cases h1 with
    | ub => exact .ub
    | no => exact .no
    | yes v v' n' hv =>
      refine (ih (fun j hj => h j (List.mem_cons_of_mem _ hj)) n').map fun vs vs' hvs => ⟨.cons _ _ _ _ _ hv hvs.1, ?_⟩
      intro w hw
      rcases List.mem_cons.1 hw with rfl | hw
      · exact hp1 _ _ rfl
      · exact hvs.2 w hw

theorem sim_each {env env' : Env} (hk : Kin env env') (js : List Json) : ∀ ts : List Ty, (∀ j ∈ js, ∀ t ∈ ts, SimM env env' j t) →
    ∀ vs vs' n, GrownEach env env' ts vs vs' → SimMeans (GrownEach env env' ts) (eachM env (js.map (meaning env)) ts vs n) (eachM env' (js.map (meaning env')) ts vs' n) := by
  induction js with
  | nil =>
    intro ts h vs vs' n hv
    cases ts with
    | nil => exact .yes _ _ _ (.nil _)
    | cons t ts => exact .no
  | cons j js ih =>
    intro ts h vs vs' n hv
    cases ts with
    | nil => exact .no
    | cons t ts =>
      simp only [List.map_cons, eachM]
      have hh : Grown env env' t (vs.headD (env.ctor t)) (vs'.headD (env'.ctor t)) ∧ GrownEach env env' ts vs.tail vs'.tail := by
        cases hv with
        | nil => exact ⟨hk.ctor t, .nil _⟩
        | cons _ _ _ _ _ _ h1 h2 => exact ⟨h1, h2⟩
      refine (h j List.mem_cons_self t List.mem_cons_self _ _ n hh.1).bind fun v v' n' hv => ?_
      exact (ih ts (fun j hj t ht => h j (List.mem_cons_of_mem _ hj) t (List.mem_cons_of_mem _ ht)) _ _ n' hh.2).map fun _ _ hvs => .cons _ _ _ _ _ _ hv hvs

theorem grown_lookup {env env' : Env} (hk : Kin env env') {t : Ty} {kvs kvs' : List (Str × Val)} (h : GrownEntries env env' t kvs kvs') (k : Str) :
    Grown env env' t ((kvs.lookup k).getD (env.ctor t)) ((kvs'.lookup k).getD (env'.ctor t)) := by
  induction kvs generalizing kvs' with
  | nil =>
    cases h
    exact hk.ctor t
  | cons p kvs ih =>
    cases h with
    | cons _ k' v v' _ kvs' hv h =>
      simp only [List.lookup]
      cases k == k' with
      | true => exact hv
      | false => exact ih h

theorem sim_entriesM {env env' : Env} (hk : Kin env env') (t : Ty) (ms : List (Str × Json)) (h : ∀ p ∈ ms, SimM env env' p.2 t) : ∀ kvs kvs' n,
    GrownEntries env env' t kvs kvs' → SimMeans (GrownEntries env env' t) (entriesM env t (ms.map fun p => (p.1, meaning env p.2)) kvs n)
      (entriesM env' t (ms.map fun p => (p.1, meaning env' p.2)) kvs' n) := by
  induction ms with
  | nil => intro kvs kvs' n hkv; exact .yes _ _ _ hkv
  | cons p ms ih =>
    intro kvs kvs' n hkv
    simp only [List.map_cons, entriesM]
    refine (h p List.mem_cons_self _ _ n (grown_lookup hk hkv p.1)).bind fun v v' n' hv => ?_
    exact ih (fun p hp => h p (List.mem_cons_of_mem _ hp)) _ _ n' (grown_assign p.1 hv hkv)

theorem sim_membersM {env env' : Env} (hk : Kin env env') (names : List Str) (ms ms' : List Member) (hn : (ms'.map (·.name)).Nodup)
    (ha : Adds (fun m => m.name ∈ names) ms ms') (fs : List (Str × Json)) (hf : NoKeysFields names fs) (h : ∀ p ∈ fs, ∀ t, SimM env env' p.2 t) : ∀ vs vs' n,
    GrownMembers env env' ms ms' vs vs' → SimMeans (GrownMembers env env' ms ms') (membersM env ms (fs.map fun p => (p.1, meaning env p.2)) vs n)
      (membersM env' ms' (fs.map fun p => (p.1, meaning env' p.2)) vs' n) := by
  induction fs with
  | nil => intro vs vs' n hv; exact .yes _ _ _ hv
  | cons p fs ih =>
    intro vs vs' n hv
    have ih := ih hf.2.2 fun p hp => h p (List.mem_cons_of_mem _ hp)
    have h := h p List.mem_cons_self
    simp only [List.map_cons, membersM]
    cases hm : memberAt ms p.1 with
    | none =>
      rw [ha.none hf.1 hm]
      exact .no
    | some i =>
      obtain ⟨m, i', w, w', h1, h2, h3, h4, h5, h6, h7⟩ := hv.at hn hm
      simp only [h1, h2, h3]
      by_cases hkind : m.kind = .optional
      · simp only [if_pos hkind]
        refine (h m.ty _ _ n (hk.ctor m.ty)).bind fun v v' n' hv => ih _ _ n' (h7 _ _ ?_)
        rw [GrownSlot, if_pos hkind]
        exact .inr ⟨_, _, rfl, rfl, hv⟩
      · simp only [if_neg hkind]
        refine (h m.ty _ _ n ?_).bind fun v v' n' hv => ih _ _ n' (h7 _ _ ?_)
        · rw [List.getD_eq_getElem?_getD, List.getD_eq_getElem?_getD, h4, h5]
          rwa [GrownSlot, if_neg hkind] at h6
        · rw [GrownSlot, if_neg hkind]
          exact hv

theorem leafMeaning_kin {env env' : Env} (hk : Kin env env') (p : Prim) (j : Json) : leafMeaning env' p j = leafMeaning env p j := by
  unfold leafMeaning
  simp only [desPrim_kin hk]

theorem grown_elements {env env' : Env} {t : Ty} {v v' : Val} (h : Grown env env' (.vec t) v v') : GrownAll env env' t v.elements v'.elements := by
  cases h with
  | inert _ _ h => cases v <;> first | exact h.elim | exact .nil _
  | vec _ _ _ h => exact h

theorem grown_setElements {env env' : Env} {t : Ty} {v v' : Val} (h : Grown env env' (.set t) v v') : GrownAll env env' t v.elements v'.elements := by
  cases h with
  | inert _ _ h => cases v <;> first | exact h.elim | exact .nil _
  | set _ _ _ h => exact h

theorem grownAll_append {env env' : Env} {t : Ty} {vs vs' ws ws' : List Val} (h : GrownAll env env' t vs vs') (h' : GrownAll env env' t ws ws') :
    GrownAll env env' t (vs ++ ws) (vs' ++ ws') := by
  induction vs generalizing vs' with
  | nil =>
    cases h
    exact h'
  | cons v vs ih =>
    cases h with
    | cons _ _ v' _ vs' hv h => exact .cons _ _ _ _ _ hv (ih h)

theorem grownEntries_append {env env' : Env} {t : Ty} {vs vs' ws ws' : List (Str × Val)} (h : GrownEntries env env' t vs vs') (h' : GrownEntries env env' t ws ws') :
    GrownEntries env env' t (vs ++ ws) (vs' ++ ws') := by
  induction vs generalizing vs' with
  | nil =>
    cases h
    exact h'
  | cons v vs ih =>
    cases h with
    | cons _ _ _ v' _ vs' hv h => exact .cons _ _ _ _ _ _ hv (ih h)

theorem grown_entries {env env' : Env} {t : Ty} {v v' : Val} (h : Grown env env' (.dict t) v v') : GrownEntries env env' t v.entries v'.entries := by
  cases h with
  | inert _ _ h => cases v <;> first | exact h.elim | exact .nil _
  | dict _ _ _ h => exact h

theorem grown_mapEntries {env env' : Env} {o : Bool} {t : Ty} {v v' : Val} (h : Grown env env' (.map o t) v v') : GrownEntries env env' t v.entries v'.entries := by
  cases h with
  | inert _ _ h => cases v <;> first | exact h.elim | exact .nil _
  | map _ _ _ _ h => exact h

theorem grown_components {env env' : Env} {ts : List Ty} {v v' : Val} (h : Grown env env' (.tuple ts) v v') : GrownEach env env' ts v.components v'.components := by
  cases h with
  | inert _ _ h => cases v <;> first | exact h.elim | exact .nil _
  | tuple _ _ _ h => exact h

theorem grown_arr {env env' : Env} {n : Nat} {t : Ty} {v v' : Val} (h : Grown env env' (.arr n t) v v') : GrownAll env env' t v.components v'.components := by
  cases h with
  | inert _ _ h => cases v <;> first | exact h.elim | exact .nil _
  | arr _ _ _ _ h => exact h

theorem sim_eachSame {env env' : Env} (hk : Kin env env') (t : Ty) (js : List Json) (h : ∀ j ∈ js, SimM env env' j t) :
    ∀ k vs vs' n, GrownAll env env' t vs vs' →
    SimMeans (GrownAll env env' t) (eachM env (js.map (meaning env)) (List.replicate k t) vs n) (eachM env' (js.map (meaning env')) (List.replicate k t) vs' n) := by
  induction js with
  | nil =>
    intro k vs vs' n hv
    cases k with
    | zero => exact .yes _ _ _ (.nil _)
    | succ k => exact .no
  | cons j js ih =>
    intro k vs vs' n hv
    cases k with
    | zero => exact .no
    | succ k =>
      simp only [List.map_cons, List.replicate_succ, eachM]
      have hh : Grown env env' t (vs.headD (env.ctor t)) (vs'.headD (env'.ctor t)) ∧ GrownAll env env' t vs.tail vs'.tail := by
        cases hv with
        | nil => exact ⟨hk.ctor t, .nil _⟩
        | cons _ _ _ _ _ h1 h2 => exact ⟨h1, h2⟩
      refine (h j List.mem_cons_self _ _ n hh.1).bind fun v v' n' hv => ?_
      exact (ih (fun j hj => h j (List.mem_cons_of_mem _ hj)) k _ _ n' hh.2).map fun _ _ hvs => .cons _ _ _ _ _ hv hvs

theorem pair_meaning (env : Env) (t : Ty) (j : Json) (target : Val) (n : Nat) (v : Val) (n' : Nat) (h : meaning env j (.tuple [.prim .str, t]) target n = .yes v n') :
    PairLike v := by
  rw [meaning_node] at h
  cases j with
  | arr js =>
    simp only [nodeM, Json.items, meaningItems_eq] at h
    cases js with
    | nil => cases h
    | cons j1 js =>
      simp only [List.map_cons, eachM, meaning_prim] at h
      cases j1 with
      | str s =>
        simp only [leafMeaning, desPrim, Means.bind] at h
        cases js with
        | nil => cases h
        | cons j2 js =>
          simp only [List.map_cons, eachM] at h
          cases h2 : meaning env j2 t (target.components.tail.headD (env.ctor t)) n with
          | ub => rw [h2] at h; cases h
          | no => rw [h2] at h; cases h
          | yes w n2 =>
            rw [h2] at h
            cases js with
            | nil =>
              cases h
              exact ⟨s, w, rfl⟩
            | cons j3 js => cases h
      | _ => cases h
  | _ =>
    simp only [nodeM] at h
    cases h

/-- The parsers of the two programs give documents in which the new names do not occur meanings that are alike. -/
theorem simM {env env' : Env} (hk : Kin env env') (names : List Str) (ha : ∀ c, Adds (fun m => m.name ∈ names) (env.members c) (env'.members c)) :
    ∀ j t, NoKeys names j → SimM env env' j t := by
  refine lexInd fun j t ihj iht hj => ?_
  intro target target' n ht
  cases t with
  | prim p =>
    rw [meaning_prim, meaning_prim, leafMeaning_kin hk]
    cases leafMeaning env p j with
    | ub => exact .ub
    | fail => exact .no
    | ok pv => exact .yes _ _ _ (.prim _ _)
  | uptr t =>
    rw [meaning_uptr, meaning_uptr]
    exact (iht t (by simp) hj _ _ n (hk.ctor t)).map fun v v' h => .uptr _ _ _ h
  | sptr t =>
    rw [meaning_sptr, meaning_sptr]
    exact (iht t (by simp) hj _ _ (n + 1) (hk.ctor t)).map fun v v' h => .sptr _ _ _ _ h
  | variant ts =>
    rw [meaning_node, meaning_node, nodeM, nodeM]
    exact .no
  | vec t =>
    rw [meaning_node, meaning_node]
    cases j with
    | arr js =>
      simp only [nodeM, Json.items, meaningItems_eq]
      refine (sim_many hk t (fun _ => True) js (fun j h => ihj j (size_item h) t (NoKeys.item hj h)) (fun _ _ _ _ _ _ => trivial) n).map fun vs vs' h => ?_
      exact .vec _ _ _ (grownAll_append (grown_elements ht) h.1)
    | _ =>
      simp only [nodeM]
      exact .no
  | set t =>
    rw [meaning_node, meaning_node]
    cases j with
    | arr js =>
      simp only [nodeM, Json.items, meaningItems_eq]
      refine (sim_many hk t (fun _ => True) js (fun j h => ihj j (size_item h) t (NoKeys.item hj h)) (fun _ _ _ _ _ _ => trivial) n).map fun vs vs' h => ?_
      exact .set _ _ _ (grownAll_fold hk h.1 (grown_setElements ht))
    | _ =>
      simp only [nodeM]
      exact .no
  | dict t =>
    rw [meaning_node, meaning_node]
    cases j with
    | arr js =>
      simp only [nodeM, Json.items, meaningItems_eq]
      refine (sim_many hk _ PairLike js (fun j h => ihj j (size_item h) _ (NoKeys.item hj h)) (fun j target n v n' h => pair_meaning env t j target n v n' h) n).map fun vs vs' h => ?_
      refine .dict _ _ _ (grownEntries_append (grown_entries ht) ?_)
      exact grown_dictEntries h.1 h.2
    | _ =>
      simp only [nodeM]
      exact .no
  | arr k t =>
    rw [meaning_node, meaning_node]
    cases j with
    | arr js =>
      simp only [nodeM, Json.items, meaningItems_eq]
      exact (sim_eachSame hk t js (fun j h => ihj j (size_item h) t (NoKeys.item hj h)) k _ _ n (grown_arr ht)).map fun vs vs' h => .arr _ _ _ _ h
    | _ =>
      simp only [nodeM]
      exact .no
  | tuple ts =>
    rw [meaning_node, meaning_node]
    cases j with
    | arr js =>
      simp only [nodeM, Json.items, meaningItems_eq]
      exact (sim_each hk js ts (fun j h t _ => ihj j (size_item h) t (NoKeys.item hj h)) _ _ n (grown_components ht)).map fun vs vs' h => .tuple _ _ _ h
    | _ =>
      simp only [nodeM]
      exact .no
  | map o t =>
    rw [meaning_node, meaning_node]
    cases j with
    | obj ms =>
      simp only [nodeM, Json.fields, meaningFields_eq]
      exact (sim_entriesM hk t ms (fun p h => ihj p.2 (size_field h) t (NoKeys.field hj h).2) _ _ n (grown_mapEntries ht)).map fun vs vs' h => .map _ _ _ _ h
    | _ =>
      simp only [nodeM]
      exact .no
  | cls c =>
    rw [meaning_node, meaning_node]
    cases j with
    | obj ms =>
      simp only [nodeM, Json.fields, meaningFields_eq]
      exact (sim_membersM hk names _ _ (hk.names c) (ha c) ms hj (fun p h t => ihj p.2 (size_field h) t (NoKeys.field hj h).2) _ _ n (grown_fit hk (ha c) ht)).map
        fun vs vs' h => .cls _ _ _ h
    | _ =>
      simp only [nodeM]
      exact .no

/-! ## Older programs -/

theorem leafReads_kin {env env' : Env} (hk : Kin env env') {p : Prim} {j : Json} {pv : PVal} (h : LeafReads env' p j pv) : LeafReads env p j pv := by
  cases h with
  | null => exact .null
  | bool b => exact .bool b
  | int t v h => exact .int t v h
  | flt t n => exact .flt t n
  | str s => exact .str s
  | bytes s bs h => exact .bytes s bs h
  | time s t h => exact .time s t (by rwa [hk.clk] at h)
  | date s y m d h => exact .date s y m d (by rwa [hk.clk] at h)
  | enumInt t v h => exact .enumInt t v h
  | enumStr table s v h => exact .enumStr table s v h

theorem pair_decodes {env : Env} {t : Ty} {js : List Json} {vs : List Val} (h : DecodesAll env (.tuple [.prim .str, t]) js vs) : ∀ v ∈ vs, PairLike v := by
  induction js generalizing vs with
  | nil =>
    cases h
    exact nofun
  | cons j js ih =>
    cases h with
    | cons _ _ _ v vs h1 h2 =>
      intro w hw
      rcases List.mem_cons.1 hw with rfl | hw
      · cases h1 with
        | tuple _ _ _ _ h =>
          cases h with
          | cons _ _ _ _ _ _ _ h1 h =>
            cases h with
            | cons _ _ _ _ _ _ _ h2 h =>
              cases h
              cases h1 with
              | prim _ _ _ _ h1 =>
                cases h1
                exact ⟨_, _, rfl⟩
      · exact ih h2 w hw

/-- What a document denotes for the newer program, it denotes for the older one, but for the new members. -/
theorem decodes_older {env env' : Env} (hk : Kin env env') (ha : ∀ c, Adds (fun _ => True) (env.members c) (env'.members c)) :
    ∀ j t, (∀ ts, ¬ Within env t (.variant ts)) → ∀ target target' v', Grown env env' t target target' → Decodes env' t j target' v' →
      ∃ v, Decodes env t j target v ∧ Grown env env' t v v' := by
  refine lexInd fun j t ihj iht hv => ?_
  have inner : ∀ {t'}, Inner env t t' → ∀ ts, ¬ Within env t' (.variant ts) := fun hi ts h => hv ts (.of_inner hi h)
  have all : ∀ t (js : List Json), (∀ j ∈ js, ∀ target target' v', Grown env env' t target target' → Decodes env' t j target' v' → ∃ v, Decodes env t j target v ∧ Grown env env' t v v') →
      ∀ vs', DecodesAll env' t js vs' → ∃ vs, DecodesAll env t js vs ∧ GrownAll env env' t vs vs' := by
    intro t js
    induction js with
    | nil =>
      intro _ vs' h
      cases h
      exact ⟨[], .nil _, .nil _⟩
    | cons j js ih =>
      intro hj vs' h
      cases h with
      | cons _ _ _ v' vs' h1 h2 =>
        obtain ⟨v, h3, h4⟩ := hj j List.mem_cons_self _ _ v' (hk.fresh t) h1
        obtain ⟨vs, h5, h6⟩ := ih (fun j hj' => hj j (List.mem_cons_of_mem _ hj')) vs' h2
        exact ⟨v :: vs, .cons _ _ _ _ _ h3 h5, .cons _ _ _ _ _ h4 h6⟩
  intro target target' v' ht h
  cases t with
  | prim p =>
    cases h with
    | prim _ _ _ pv h => exact ⟨_, .prim _ _ _ _ (leafReads_kin hk h), .prim _ _⟩
  | vec t =>
    cases h with
    | vec _ js _ vs' h =>
      obtain ⟨vs, h1, h2⟩ := all t js (fun j hj => ihj j (size_item hj) t (inner (.vec t))) vs' h
      exact ⟨_, .vec _ _ _ _ h1, .vec _ _ _ h2⟩
  | arr n t =>
    cases h with
    | arr _ _ js _ vs' hl h =>
      obtain ⟨vs, h1, h2⟩ := all t js (fun j hj => ihj j (size_item hj) t (inner (.arr n t))) vs' h
      exact ⟨_, .arr _ _ _ _ _ hl h1, .arr _ _ _ _ h2⟩
  | set t =>
    cases h with
    | set _ js _ vs' h =>
      obtain ⟨vs, h1, h2⟩ := all t js (fun j hj => ihj j (size_item hj) t (inner (.set t))) vs' h
      exact ⟨_, .set _ _ _ _ h1, .set _ _ _ (grownAll_fold hk h2 (.nil _))⟩
  | dict t =>
    cases h with
    | dict _ js _ vs' h =>
      obtain ⟨vs, h1, h2⟩ := all _ js (fun j hj => ihj j (size_item hj) _ (inner (.dict t))) vs' h
      refine ⟨_, .dict _ _ _ _ h1, .dict _ _ _ (grown_dictEntries h2 (pair_decodes h1))⟩
  | map o t =>
    cases h with
    | map _ _ ms _ kvs' h =>
      have : ∀ (ms : List (Str × Json)), (∀ p ∈ ms, ∀ target target' v', Grown env env' t target target' → Decodes env' t p.2 target' v' → ∃ v, Decodes env t p.2 target v ∧ Grown env env' t v v') →
          ∀ kvs', DecodesEntries env' t ms kvs' → ∃ kvs, DecodesEntries env t ms kvs ∧ GrownEntries env env' t kvs kvs' := by
        intro ms
        induction ms with
        | nil =>
          intro _ kvs' h
          cases h
          exact ⟨[], .nil _, .nil _⟩
        | cons p ms ih =>
          intro hp kvs' h
          cases h with
          | cons _ k j _ v' kvs' h1 h2 =>
            obtain ⟨v, h3, h4⟩ := hp _ List.mem_cons_self _ _ v' (hk.fresh t) h1
            obtain ⟨vs, h5, h6⟩ := ih (fun p hp' => hp p (List.mem_cons_of_mem _ hp')) kvs' h2
            exact ⟨_, .cons _ _ _ _ _ _ h3 h5, .cons _ _ _ _ _ _ h4 h6⟩
      obtain ⟨kvs, h1, h2⟩ := this ms (fun p hp => ihj p.2 (size_field hp) t (inner (.map o t))) kvs' h
      exact ⟨_, .map _ _ _ _ _ h1, .map _ _ _ _ (grown_assigns h2 (.nil _))⟩
  | tuple ts =>
    cases h with
    | tuple _ js _ vs' h =>
      have : ∀ (js : List Json) (ts : List Ty), (∀ j ∈ js, ∀ t ∈ ts, ∀ target target' v', Grown env env' t target target' → Decodes env' t j target' v' →
          ∃ v, Decodes env t j target v ∧ Grown env env' t v v') → ∀ targets targets' vs', GrownEach env env' ts targets targets' → DecodesEach env' ts js targets' vs' →
          ∃ vs, DecodesEach env ts js targets vs ∧ GrownEach env env' ts vs vs' := by
        intro js
        induction js with
        | nil =>
          intro ts _ targets targets' vs' _ h
          cases h
          exact ⟨[], .nil _, .nil _⟩
        | cons j js ih =>
          intro ts hj targets targets' vs' hg h
          cases h with
          | cons t ts _ _ _ v' vs' h1 h2 =>
            have hh : Grown env env' t (targets.headD (env.fresh t)) (targets'.headD (env'.fresh t)) ∧ GrownEach env env' ts targets.tail targets'.tail := by
              cases hg with
              | nil => exact ⟨hk.fresh t, .nil _⟩
              | cons _ _ _ _ _ _ g1 g2 => exact ⟨g1, g2⟩
            obtain ⟨v, h3, h4⟩ := hj j List.mem_cons_self t List.mem_cons_self _ _ v' hh.1 h1
            obtain ⟨vs, h5, h6⟩ := ih ts (fun j hj' t ht' => hj j (List.mem_cons_of_mem _ hj') t (List.mem_cons_of_mem _ ht')) _ _ vs' hh.2 h2
            exact ⟨_, .cons _ _ _ _ _ _ _ h3 h5, .cons _ _ _ _ _ _ h4 h6⟩
      obtain ⟨vs, h1, h2⟩ := this js ts (fun j hj t ht => ihj j (size_item hj) t (inner (.tuple ts t ht))) _ _ vs' (grown_components ht) h
      exact ⟨_, .tuple _ _ _ _ h1, .tuple _ _ _ h2⟩
  | variant ts => exact absurd .self (hv ts)
  | cls c =>
    cases h with
    | cls _ fields _ vs' h =>
      have : ∀ ms ms' ts ts' vs', GrownTargets env env' ms ms' ts ts' → (∀ m ∈ ms, m ∈ env.members c) → DecodesMembers env' fields ms' ts' vs' →
          ∃ vs, DecodesMembers env fields ms ts vs ∧ GrownMembers env env' ms ms' vs vs' := by
        intro ms ms' ts ts' vs' hg
        induction hg generalizing vs' with
        | nil =>
          intro _ h
          cases h
          exact ⟨[], .nil _ _, .nil⟩
        | new m ms ms' ts ts' hg ih =>
          intro hm h
          have : ∃ w' us', vs' = w' :: us' ∧ DecodesMembers env' fields ms' ts'.tail us' := by
            cases h with
            | present _ _ _ _ i j v vs hf hk' hd h => exact ⟨_, _, rfl, h⟩
            | some _ _ _ _ i j v vs hf hk' hd h => exact ⟨_, _, rfl, h⟩
            | none _ _ _ _ vs hf hk' h => exact ⟨_, _, rfl, h⟩
            | keep _ _ _ _ vs hf hk' h => exact ⟨_, _, rfl, h⟩
          obtain ⟨w', us', rfl, h'⟩ := this
          obtain ⟨vs, h1, h2⟩ := ih us' hm h'
          exact ⟨vs, h1, .new _ _ _ _ _ _ h2⟩
        | same m ms ms' ts ts' hh hg ih =>
          intro hm h
          have ih := fun us => ih us fun m hm' => hm m (List.mem_cons_of_mem _ hm')
          have rd := fun i j (hf : findMember m.name fields = some (i, j)) => ihj j (size_field (findMember_mem hf)) m.ty (inner (.cls c m (hm m List.mem_cons_self)))
          cases h with
          | present _ _ _ _ i j v' us' hf hk' hd h =>
            obtain ⟨vs, h1, h2⟩ := ih us' h
            obtain ⟨v, h3, h4⟩ := rd i j hf _ _ v' (hh hk') hd
            exact ⟨v :: vs, .present _ _ _ _ i j _ _ hf hk' h3 h1, .same _ _ _ _ _ _ _ hk' h4 h2⟩
          | some _ _ _ _ i j v' us' hf hk' hd h =>
            obtain ⟨vs, h1, h2⟩ := ih us' h
            obtain ⟨v, h3, h4⟩ := rd i j hf _ _ v' (hk.fresh m.ty) hd
            exact ⟨.present v :: vs, .some _ _ _ _ i j _ _ hf hk' h3 h1, .present _ _ _ _ _ _ _ hk' h4 h2⟩
          | none _ _ _ _ us' hf hk' h =>
            obtain ⟨vs, h1, h2⟩ := ih us' h
            exact ⟨.absent :: vs, .none _ _ _ _ _ hf hk' h1, .absent _ _ _ _ _ hk' h2⟩
          | keep _ _ _ _ us' hf hk' h =>
            obtain ⟨vs, h1, h2⟩ := ih us' h
            have hno : m.kind ≠ .optional := by rw [hk']; exact nofun
            exact ⟨_ :: vs, .keep _ _ _ _ _ hf hk' h1, .same _ _ _ _ _ _ _ hno (hh hno) h2⟩
      obtain ⟨vs, h1, h2⟩ := this _ _ _ _ vs' (grownTargets_of hk (ha c) ht) (fun _ h => h) h
      exact ⟨_, .cls _ _ _ _ h1, .cls _ _ _ h2⟩
  | uptr t =>
    cases h with
    | uptr _ _ _ v' h =>
      obtain ⟨v, h1, h2⟩ := iht t (by simp) (inner (.uptr t)) _ _ v' (hk.ctor t) h
      exact ⟨_, .uptr _ _ _ _ h1, .uptr _ _ _ h2⟩
  | sptr t => cases h

end Verif.Core
