import Verif.ParseMore

/-!
# Parsing before the tables of member names have been built

The table that maps the keys of a class with three or more members to the members is a static data member of a class template
(parse_object.hpp:206-207). Its initialiser reads the variable `names`, which is not a constant, so that the initialisation is dynamic, and
because it belongs to a template it is unordered with respect to everything else that is initialised before `main`. A constructor or an
initialiser of the application that calls `parse` may therefore find the table as it was before: filled with zeros, like every object
with static storage. The variable `names` itself is initialised by a constant expression (parse_object.hpp:198-203, 206) and is complete.
-/

namespace Verif.Core
open Verif.Numeric Verif.PerfectHash Verif.Props

/-! ## Model -/

/-- The table of a class with `n` members before its initialisation: zeros (parse_object.hpp:207, perfect_hash.hpp:174-175). -/
def zeroTable (n : Nat) : Table := { indexMap := List.replicate n 0, G := List.replicate n 0 }

/-- The program at a moment of its static initialisation when the tables of the classes `ready` have been built and the others have not
(parse_object.hpp:207); classes with fewer than three members have no table (parse_object.hpp:238-244). -/
def Host.early (host : Host) (env : Env) (ready : Nat → Bool) : Host :=
  { host with table := fun c => if ready c || decide ((env.members c).length < 3) then host.table c else zeroTable (env.members c).length }

/-! ## Specification -/

/-- The key `k` occurs in an object that is read as an object of the class `c` when `j` is read as a `t`. -/
inductive KeyAt (env : Env) : Ty → Json → Nat → Str → Prop
  | here (c : Nat) (ms : List (Str × Json)) (p : Str × Json) : env.members c ≠ [] → p ∈ ms → KeyAt env (.cls c) (.obj ms) c p.1
  | member (c : Nat) (ms : List (Str × Json)) (p : Str × Json) (i : Nat) (m : Member) (c' : Nat) (k : Str) : p ∈ ms →
      memberAt (env.members c) p.1 = some i → (env.members c)[i]? = some m → KeyAt env m.ty p.2 c' k → KeyAt env (.cls c) (.obj ms) c' k
  | vec (t : Ty) (js : List Json) (j : Json) (c : Nat) (k : Str) : j ∈ js → KeyAt env t j c k → KeyAt env (.vec t) (.arr js) c k
  | set (t : Ty) (js : List Json) (j : Json) (c : Nat) (k : Str) : j ∈ js → KeyAt env t j c k → KeyAt env (.set t) (.arr js) c k
  | arr (n : Nat) (t : Ty) (js : List Json) (i : Nat) (j : Json) (c : Nat) (k : Str) : i < n → js[i]? = some j → KeyAt env t j c k →
      KeyAt env (.arr n t) (.arr js) c k
  | tuple (ts : List Ty) (js : List Json) (i : Nat) (t : Ty) (j : Json) (c : Nat) (k : Str) : ts[i]? = some t → js[i]? = some j →
      KeyAt env t j c k → KeyAt env (.tuple ts) (.arr js) c k
  | map (o : Bool) (t : Ty) (ms : List (Str × Json)) (p : Str × Json) (c : Nat) (k : Str) : p ∈ ms → KeyAt env t p.2 c k →
      KeyAt env (.map o t) (.obj ms) c k
  | dict (t : Ty) (js : List Json) (j : Json) (c : Nat) (k : Str) : j ∈ js → KeyAt env (.tuple [.prim .str, t]) j c k →
      KeyAt env (.dict t) (.arr js) c k
  | uptr (t : Ty) (j : Json) (c : Nat) (k : Str) : KeyAt env t j c k → KeyAt env (.uptr t) j c k
  | sptr (t : Ty) (j : Json) (c : Nat) (k : Str) : KeyAt env t j c k → KeyAt env (.sptr t) j c k

/-- The class does not need a table, its table has been built, or the key is the name of its first member. -/
def Knows (env : Env) (ready : Nat → Bool) (c : Nat) (k : Str) : Prop :=
  (env.members c).length < 3 ∨ ready c = true ∨ (env.members c).head?.map (·.name) = some k

/-! ## The selection of a member -/

theorem index_zero (cs : Bool) (n : Nat) (h : 0 < n) (key : Str) : index cs (zeroTable n) n key = some 0 := by
  unfold index indexWith zeroTable
  have h1 : (List.replicate n 0)[hash cs 0 key % n]? = some 0 := by
    rw [List.getElem?_replicate, if_pos (Nat.mod_lt _ h)]
  simp only [h1]
  rfl

theorem dispatch_three (cs : Bool) (tab : Table) (names : List Str) (h : 3 ≤ names.length) (key : Str) :
    dispatch cs tab names key = dispatchHash cs tab names key := by
  match names, h with
  | _ :: _ :: _ :: _, _ => rfl

/-- The table of zeros knows the first member only. -/
theorem select_zero (env : Env) (host : Host) (ready : Nat → Bool) (c : Nat) (k : Str) (h3 : 3 ≤ (env.members c).length) (hr : ready c = false) :
    selectMember env (host.early env ready) c k = if (env.members c).head?.map (·.name) = some k then .member 0 else .reject := by
  unfold selectMember
  rw [dispatch_three _ _ _ (by simpa using h3)]
  unfold dispatchHash
  have ht : (host.early env ready).table c = zeroTable (env.members c).length := by simp [Host.early, hr, h3]
  rw [ht, List.length_map, index_zero _ _ (by omega)]
  cases hm : env.members c with
  | nil => rw [hm] at h3; simp at h3
  | cons m ms =>
    simp only [List.map_cons, List.getElem?_cons_zero, List.head?_cons, Option.map_some, Option.some.injEq]
    by_cases hk : m.name = k <;> simp [hk]

/-- A key that is known selects the same member as after the initialisation, any other key is refused. -/
theorem select_early (env : Env) (host : Host) (hs : Selects env host) (ready : Nat → Bool) (c : Nat) (k : Str) :
    (Knows env ready c k → selectMember env (host.early env ready) c k = selectMember env host c k) ∧
    (¬Knows env ready c k → selectMember env (host.early env ready) c k = .reject) := by
  by_cases h3 : (env.members c).length < 3
  · refine ⟨fun _ => ?_, fun h => absurd (.inl h3) h⟩
    simp [selectMember, Host.early, h3]
  · cases hr : ready c with
    | true =>
      refine ⟨fun _ => ?_, fun h => absurd (.inr (.inl hr)) h⟩
      simp [selectMember, Host.early, hr]
    | false =>
      rw [select_zero env host ready c k (by omega) hr]
      by_cases hk : (env.members c).head?.map (·.name) = some k
      · refine ⟨fun _ => ?_, fun h => absurd (.inr (.inr hk)) h⟩
        cases hm : env.members c with
        | nil => rw [hm] at h3; simp at h3
        | cons m ms =>
          rw [if_pos (by rw [← hm]; exact hk), hs c (by simp [hm]) k, hm]
          rw [hm] at hk
          simp only [List.head?_cons, Option.map_some, Option.some.injEq] at hk
          simp [memberAt, List.findIdx?_cons, hk]
      · refine ⟨fun h => ?_, fun _ => if_neg hk⟩
        rcases h with h | h | h
        · exact absurd h h3
        · rw [hr] at h; cases h
        · exact absurd h hk

/-! ## Event by event -/

theorem used_early (env : Env) (host : Host) (ready : Nat → Bool) (K : List HClass) : used (host.early env ready) K = used host K := by
  induction K with
  | nil => rfl
  | cons c K ih => simp only [used, ih]; rfl

theorem room_early (env : Env) (host : Host) (ready : Nat → Bool) (K : List HClass) (c : HClass) :
    room (host.early env ready) K c = room host K c := by
  simp only [room, used_early]; rfl

theorem openStep_early (env : Env) (host : Host) (ready : Nat → Bool) (f : Frame) (rest : List Frame) (fin : Option Val) (n : Nat) (e : Event) :
    openStep env (host.early env ready) f rest fin n e = openStep env host f rest fin n e := by
  unfold openStep replaceTop
  simp only [room_early]

theorem emplaceP_early (env : Env) (host : Host) (ready : Nat → Bool) (rest : List Frame) (n : Nat) (c : HClass) (t : Ty) (target : Val)
    (link : Link) (outer : Val → Val) (k : Frame → Nat → POut) :
    emplaceP env (host.early env ready) rest n c t target link outer k = emplaceP env host rest n c t target link outer k := by
  unfold emplaceP
  rw [room_early]

theorem pstep_early (env : Env) (host : Host) (hs : Selects env host) (ready : Nat → Bool) (s : PState) (e : Event) :
    pstep env (host.early env ready) s e = pstep env host s e ∨ pstep env (host.early env ready) s e = .fail := by
  obtain ⟨stack, fin, n⟩ := s
  cases stack with
  | nil => exact .inl rfl
  | cons f rest =>
    obtain ⟨cls, h, link, wrap⟩ := f
    cases h with
    | objItems c vs =>
      cases e with
      | key k =>
        by_cases hk : Knows env ready c k
        · left
          simp only [pstep, (select_early env host hs ready c k).1 hk, emplaceP_early]
        · right
          simp only [pstep, (select_early env host hs ready c k).2 hk]
      | _ => exact .inl rfl
    | _ => left; simp only [pstep, openStep_early, emplaceP_early, room_early]

theorem prun_early (env : Env) (host : Host) (hs : Selects env host) (ready : Nat → Bool) (es : List Event) : ∀ s,
    prun env (host.early env ready) s es = prun env host s es ∨ prun env (host.early env ready) s es = .fail := by
  induction es with
  | nil => intro s; exact .inl rfl
  | cons e es ih =>
    intro s
    simp only [prun]
    rcases pstep_early env host hs ready s e with h | h
    · rw [h]
      cases pstep env host s e with
      | go s' => exact ih s'
      | _ => exact .inl rfl
    · rw [h]; exact .inr rfl

theorem parse_early (env : Env) (host : Host) (hs : Selects env host) (ready : Nat → Bool) (t : Ty) (feed : Feed) (target : Val) (n : Nat) :
    parseBool env (host.early env ready) t feed target n = parseBool env host t feed target n ∨
    parseBool env (host.early env ready) t feed target n = .rejected := by
  unfold parseBool
  rw [room_early]
  split
  · rcases prun_early env host hs ready feed.events (start env t target n) with h | h
    · rw [h]; exact .inl rfl
    · rw [h]; exact .inr rfl
  · exact .inl rfl

/-! ## Complete documents -/

/-- `KeyAt` for a value that is delivered to a handler. -/
def KeyIn (env : Env) : Handler → Json → Nat → Str → Prop
  | .vecStart t _, j, c, k => ∃ j' ∈ j.items, KeyAt env t j' c k
  | .setStart t _, j, c, k => ∃ j' ∈ j.items, KeyAt env t j' c k
  | .fixStart _ ts _, j, c, k => ∃ (i : Nat) (t : Ty) (j' : Json), ts[i]? = some t ∧ j.items[i]? = some j' ∧ KeyAt env t j' c k
  | .mapStart _ t _, j, c, k => ∃ p ∈ j.fields, KeyAt env t p.2 c k
  | .objStart c' _, j, c, k => ∃ p ∈ j.fields, (c' = c ∧ p.1 = k) ∨
      ∃ i m, memberAt (env.members c') p.1 = some i ∧ (env.members c')[i]? = some m ∧ KeyAt env m.ty p.2 c k
  | _, _, _, _ => False

theorem keyAt_open (env : Env) (j : Json) (c : Nat) (k : Str) : ∀ (t : Ty) (target : Val) (n : Nat),
    KeyAt env t j c k ↔ KeyIn env (openP env t target n).1 j c k := by
  intro t target n
  induction t, target, n using openP.induct env with
  | case1 p target n => exact ⟨fun h => (nomatch h), fun h => h.elim⟩
  | case2 t target n =>
    constructor
    · intro h
      cases h with
      | vec _ js j' _ _ h1 h2 => exact ⟨j', h1, h2⟩
    · rintro ⟨j', h1, h2⟩
      match j, h1 with
      | .arr js, h1 => exact .vec _ _ j' _ _ h1 h2
  | case3 l t target n =>
    constructor
    · intro h
      cases h with
      | arr _ _ js i j' _ _ h1 h2 h3 => exact ⟨i, t, j', by rw [List.getElem?_replicate, if_pos h1], h2, h3⟩
    · rintro ⟨i, t', j', h1, h2, h3⟩
      rw [List.getElem?_replicate] at h1
      split at h1
      · cases h1
        match j, h2 with
        | .arr js, h2 => exact .arr _ _ _ i j' _ _ (by assumption) h2 h3
      · cases h1
  | case4 t target n =>
    constructor
    · intro h
      cases h with
      | set _ js j' _ _ h1 h2 => exact ⟨j', h1, h2⟩
    · rintro ⟨j', h1, h2⟩
      match j, h1 with
      | .arr js, h1 => exact .set _ _ j' _ _ h1 h2
  | case5 o t target n =>
    constructor
    · intro h
      cases h with
      | map _ _ ms p _ _ h1 h2 => exact ⟨p, h1, h2⟩
    · rintro ⟨p, h1, h2⟩
      match j, h1 with
      | .obj ms, h1 => exact .map _ _ _ p _ _ h1 h2
  | case6 t target n =>
    constructor
    · intro h
      cases h with
      | dict _ js j' _ _ h1 h2 => exact ⟨j', h1, h2⟩
    · rintro ⟨j', h1, h2⟩
      match j, h1 with
      | .arr js, h1 => exact .dict _ _ j' _ _ h1 h2
  | case7 ts target n =>
    constructor
    · intro h
      cases h with
      | tuple _ js i t j' _ _ h1 h2 h3 => exact ⟨i, t, j', h1, h2, h3⟩
    · rintro ⟨i, t, j', h1, h2, h3⟩
      match j, h2 with
      | .arr js, h2 => exact .tuple _ _ i t j' _ _ h1 h2 h3
  | case8 ts target n => exact ⟨fun h => (nomatch h), fun h => h.elim⟩
  | case9 c' target n hc =>
    simp only [openP, if_pos hc]
    refine ⟨fun h => ?_, fun h => h.elim⟩
    cases h with
    | here _ ms p h1 h2 => exact absurd hc h1
    | member _ ms p i m _ _ h1 h2 h3 h4 => rw [hc] at h3; simp at h3
  | case10 c' target n hc =>
    simp only [openP, if_neg hc]
    constructor
    · intro h
      cases h with
      | here _ ms p h1 h2 => exact ⟨p, h2, .inl ⟨rfl, rfl⟩⟩
      | member _ ms p i m _ _ h1 h2 h3 h4 => exact ⟨p, h1, .inr ⟨i, m, h2, h3, h4⟩⟩
    · rintro ⟨p, h1, h2⟩
      match j, h1 with
      | .obj ms, h1 =>
        rcases h2 with ⟨rfl, rfl⟩ | ⟨i, m, h2, h3, h4⟩
        · exact .here _ _ p hc h1
        · exact .member _ _ p i m _ _ h1 h2 h3 h4
  | case11 t target n h w n' heq ih =>
    simp only [openP]
    refine Iff.trans ⟨fun h => ?_, fun h => .uptr _ _ _ _ h⟩ ih
    cases h with
    | uptr _ _ _ _ h => exact h
  | case12 t target n h w n' heq ih =>
    simp only [openP]
    refine Iff.trans ⟨fun h => ?_, fun h => .sptr _ _ _ _ h⟩ ih
    cases h with
    | sptr _ _ _ _ h => exact h

/-- All keys of the value are known. -/
def AllKnown (env : Env) (ready : Nat → Bool) (t : Ty) (j : Json) : Prop := ∀ c k, KeyAt env t j c k → Knows env ready c k

section
variable (env : Env) (host : Host) (hs : Selects env host) (ready : Nat → Bool)

/-- What is accepted before the initialisation is what is accepted after it and has known keys only. -/
def EarlyOk (j : Json) : Prop := ∀ K h n v m, pval env (host.early env ready) j K h n = .ok v m ↔
  pval env host j K h n = .ok v m ∧ ∀ c k, KeyIn env h j c k → Knows env ready c k

theorem early_child {α : Type} {j : Json} (hj : EarlyOk env host ready j) (K : List HClass) (cl : HClass) (t : Ty) (target : Val) (n : Nat)
    (outer : Val → Val) {k k' : Val → Nat → LRes α} {a : α} {m : Nat} {Q : Prop} (hk : ∀ v n, k' v n = .ok a m ↔ k v n = .ok a m ∧ Q) :
    withChild env (host.early env ready) K cl t target n outer (pval env (host.early env ready) j) k' = .ok a m ↔
    withChild env host K cl t target n outer (pval env host j) k = .ok a m ∧ AllKnown env ready t j ∧ Q := by
  rw [child_iff, child_iff, room_early]
  have ha : AllKnown env ready t j ↔ ∀ c k, KeyIn env (openP env t target n).1 j c k → Knows env ready c k :=
    ⟨fun h c k hk => h c k ((keyAt_open env j c k t target n).2 hk), fun h c k hk => h c k ((keyAt_open env j c k t target n).1 hk)⟩
  constructor
  · rintro ⟨h1, v, m', h2, h3⟩
    obtain ⟨h4, h5⟩ := (hj _ _ _ _ _).1 h2
    obtain ⟨h6, h7⟩ := (hk _ _).1 h3
    exact ⟨⟨h1, v, m', h4, h6⟩, ha.2 h5, h7⟩
  · rintro ⟨⟨h1, v, m', h4, h6⟩, h5, h7⟩
    exact ⟨h1, v, m', (hj _ _ _ _ _).2 ⟨h4, ha.1 h5⟩, (hk _ _).2 ⟨h6, h7⟩⟩

theorem known_prim {env : Env} {ready : Nat → Bool} {t : Ty} {p : Prim} (h : direct t = some p) (j : Json) : AllKnown env ready t j := by
  rw [direct_eq t p h]
  intro c k hk
  exact nomatch hk

theorem early_vec (K : List HClass) (t : Ty) (js : List Json) (hj : ∀ j ∈ js, EarlyOk env host ready j) : ∀ vs n us m,
    loopVec env (host.early env ready) K t (pitems env (host.early env ready) js) vs n = .ok us m ↔
    loopVec env host K t (pitems env host js) vs n = .ok us m ∧ ∀ j ∈ js, AllKnown env ready t j := by
  induction js with
  | nil => intro vs n us m; simp [pitems, loopVec]
  | cons j js ih =>
    intro vs n us m
    have ih := ih fun j hj' => hj j (by simp [hj'])
    simp only [pitems, vec_iff, List.forall_mem_cons]
    constructor
    · rintro (⟨p, pv, h1, h2, h3⟩ | ⟨h1, h2, h3⟩)
      · obtain ⟨h4, h5⟩ := (ih _ _ _ _).1 h3
        exact ⟨.inl ⟨p, pv, h1, h2, h4⟩, known_prim h1 j, h5⟩
      · obtain ⟨h4, h5, h6⟩ := (early_child env host ready (hj j (by simp)) K _ t _ n id fun v n => ih _ n us m).1 h3
        exact ⟨.inr ⟨h1, h2, h4⟩, h5, h6⟩
    · rintro ⟨⟨p, pv, h1, h2, h3⟩ | ⟨h1, h2, h3⟩, h5, h6⟩
      · exact .inl ⟨p, pv, h1, h2, (ih _ _ _ _).2 ⟨h3, h6⟩⟩
      · exact .inr ⟨h1, h2, (early_child env host ready (hj j (by simp)) K _ t _ n id fun v n => ih _ n us m).2 ⟨h3, h5, h6⟩⟩

theorem early_set (K : List HClass) (t : Ty) (js : List Json) (hj : ∀ j ∈ js, EarlyOk env host ready j) : ∀ st vs n us m,
    loopSet env (host.early env ready) K t (pitems env (host.early env ready) js) st vs n = .ok us m ↔
    loopSet env host K t (pitems env host js) st vs n = .ok us m ∧ ∀ j ∈ js, AllKnown env ready t j := by
  induction js with
  | nil => intro st vs n us m; simp [pitems, loopSet]
  | cons j js ih =>
    intro st vs n us m
    have ih := ih fun j hj' => hj j (by simp [hj'])
    simp only [pitems, set_iff, List.forall_mem_cons]
    constructor
    · rintro (⟨p, pv, h1, h2, h3⟩ | ⟨h1, h2, h3⟩)
      · obtain ⟨h4, h5⟩ := (ih _ _ _ _ _).1 h3
        exact ⟨.inl ⟨p, pv, h1, h2, h4⟩, known_prim h1 j, h5⟩
      · obtain ⟨h4, h5, h6⟩ := (early_child env host ready (hj j (by simp)) K _ t _ n id fun v n => ih _ _ n us m).1 h3
        exact ⟨.inr ⟨h1, h2, h4⟩, h5, h6⟩
    · rintro ⟨⟨p, pv, h1, h2, h3⟩ | ⟨h1, h2, h3⟩, h5, h6⟩
      · exact .inl ⟨p, pv, h1, h2, (ih _ _ _ _ _).2 ⟨h3, h6⟩⟩
      · exact .inr ⟨h1, h2, (early_child env host ready (hj j (by simp)) K _ t _ n id fun v n => ih _ _ n us m).2 ⟨h3, h5, h6⟩⟩

theorem early_fix (K : List HClass) (C : Ty) (ts : List Ty) (js : List Json) (hj : ∀ j ∈ js, EarlyOk env host ready j) : ∀ i vs n us m,
    loopFix env (host.early env ready) K C ts (pitems env (host.early env ready) js) i vs n = .ok us m ↔
    loopFix env host K C ts (pitems env host js) i vs n = .ok us m ∧
      ∀ (l : Nat) (t : Ty) (j : Json), ts[i + l]? = some t → js[l]? = some j → AllKnown env ready t j := by
  induction js with
  | nil => intro i vs n us m; simp [pitems, loopFix]
  | cons j js ih =>
    intro i vs n us m
    have ih := ih fun j hj' => hj j (by simp [hj'])
    simp only [pitems, fix_iff, room_early]
    constructor
    · rintro ⟨t, h1, h2, h3⟩
      obtain ⟨h4, h5, h6⟩ := (early_child env host ready (hj j (by simp)) _ _ t _ n id fun v n => ih _ _ n us m).1 h3
      refine ⟨⟨t, h1, h2, h4⟩, fun l t' j' ht hl => ?_⟩
      cases l with
      | zero =>
        rw [Nat.add_zero, h1] at ht
        cases ht; cases hl
        exact h5
      | succ l => exact h6 l t' j' (by rw [← ht]; congr 1; omega) hl
    · rintro ⟨⟨t, h1, h2, h3⟩, h4⟩
      refine ⟨t, h1, h2, (early_child env host ready (hj j (by simp)) _ _ t _ n id fun v n => ih _ _ n us m).2 ⟨h3, ?_, ?_⟩⟩
      · exact h4 0 t j h1 rfl
      · exact fun l t' j' ht hl => h4 (l + 1) t' j' (by rw [← ht]; congr 1; omega) hl

theorem early_map (K : List HClass) (t : Ty) (ms : List (Str × Json)) (hj : ∀ p ∈ ms, EarlyOk env host ready p.2) : ∀ kvs n us m,
    loopMap env (host.early env ready) K t (pfields env (host.early env ready) ms) kvs n = .ok us m ↔
    loopMap env host K t (pfields env host ms) kvs n = .ok us m ∧ ∀ p ∈ ms, AllKnown env ready t p.2 := by
  induction ms with
  | nil => intro kvs n us m; simp [pfields, loopMap]
  | cons p ms ih =>
    intro kvs n us m
    obtain ⟨k, j⟩ := p
    have ih := ih fun p hp => hj p (by simp [hp])
    simp only [pfields, loopMap, List.forall_mem_cons]
    exact early_child env host ready (hj (k, j) (by simp)) K _ t _ n id fun v n => ih _ n us m

include hs in
theorem early_obj (K : List HClass) (c : Nat) (ms : List (Str × Json)) (hj : ∀ p ∈ ms, EarlyOk env host ready p.2) :
    ∀ vs n us m',
    loopObj env (host.early env ready) K c (pfields env (host.early env ready) ms) vs n = .ok us m' ↔
    loopObj env host K c (pfields env host ms) vs n = .ok us m' ∧ ∀ p ∈ ms, Knows env ready c p.1 ∧
      ∀ i m, memberAt (env.members c) p.1 = some i → (env.members c)[i]? = some m → AllKnown env ready m.ty p.2 := by
  induction ms with
  | nil => intro vs n us m; simp [pfields, loopObj]
  | cons p ms ih =>
    intro vs n us m'
    obtain ⟨k, j⟩ := p
    have ih := ih fun p hp => hj p (by simp [hp])
    by_cases hc : env.members c = []
    · simp only [pfields, obj_iff, hc, List.getElem?_nil]
      constructor
      · rintro ⟨_, _, _, h, _⟩; cases h
      · rintro ⟨⟨_, _, _, h, _⟩, _⟩; cases h
    have hsel : ∀ i, selectMember env host c k = .member i ↔ memberAt (env.members c) k = some i := by
      intro i
      rw [hs c hc k]
      cases memberAt (env.members c) k <;> simp
    simp only [pfields, obj_iff, List.forall_mem_cons]
    constructor
    · rintro ⟨i, m, h1, h2, h3⟩
      obtain ⟨h4, h5, h6⟩ := (early_child env host ready (hj (k, j) (by simp)) K _ _ _ n _ fun v n => ih _ n us m').1 h3
      have hk : Knows env ready c k := by
        by_cases hk : Knows env ready c k
        · exact hk
        · rw [(select_early env host hs ready c k).2 hk] at h1; cases h1
      rw [(select_early env host hs ready c k).1 hk] at h1
      refine ⟨⟨i, m, h1, h2, h4⟩, ⟨hk, fun i' m2 hi hm => ?_⟩, h6⟩
      rw [(hsel i).1 h1] at hi
      cases hi
      rw [h2] at hm
      cases hm
      exact h5
    · rintro ⟨⟨i, m, h1, h2, h3⟩, ⟨h4, h5⟩, h6⟩
      refine ⟨i, m, by rw [(select_early env host hs ready c k).1 h4]; exact h1, h2, ?_⟩
      exact (early_child env host ready (hj (k, j) (by simp)) K _ _ _ n _ fun v n => ih _ n us m').2 ⟨h3, h5 i m ((hsel i).1 h1) h2, h6⟩

include hs in
theorem early_ok : ∀ j, EarlyOk env host ready j := by
  intro j
  induction j using Json.induct with
  | scalar j h1 h2 =>
    intro K h n v m
    rw [pval_scalar env host j h1 h2, pval_scalar env _ j h1 h2]
    refine ⟨fun h3 => ⟨h3, fun c k hk => ?_⟩, fun h3 => h3.1⟩
    cases h <;> simp only [scalar] at h3 <;> first | cases h3 | exact hk.elim
  | arr js ih =>
    intro K h n v m
    simp only [pval, array_iff, room_early]
    constructor
    · rintro (⟨t, vs, us, rfl, h1, h2, rfl⟩ | ⟨t, vs, us, rfl, h1, h2, rfl⟩ | ⟨C, ts, vs, us, rfl, h1, h2, rfl⟩)
      · obtain ⟨h3, h4⟩ := (early_vec env host ready _ _ js ih _ _ _ _).1 h2
        exact ⟨.inl ⟨_, _, _, rfl, h1, h3, rfl⟩, fun c k ⟨j, hj, hk⟩ => h4 j hj c k hk⟩
      · obtain ⟨h3, h4⟩ := (early_set env host ready _ _ js ih _ _ _ _ _).1 h2
        exact ⟨.inr (.inl ⟨_, _, _, rfl, h1, h3, rfl⟩), fun c k ⟨j, hj, hk⟩ => h4 j hj c k hk⟩
      · obtain ⟨h3, h4⟩ := (early_fix env host ready _ _ _ js ih _ _ _ _ _).1 h2
        exact ⟨.inr (.inr ⟨_, _, _, _, rfl, h1, h3, rfl⟩), fun c k ⟨i, t, j, ht, hj, hk⟩ =>
          h4 i t j (by rw [Nat.zero_add]; exact ht) hj c k hk⟩
    · rintro ⟨⟨t, vs, us, rfl, h1, h2, rfl⟩ | ⟨t, vs, us, rfl, h1, h2, rfl⟩ | ⟨C, ts, vs, us, rfl, h1, h2, rfl⟩, h4⟩
      · exact .inl ⟨_, _, _, rfl, h1, (early_vec env host ready _ _ js ih _ _ _ _).2 ⟨h2, fun j hj c k hk => h4 c k ⟨j, hj, hk⟩⟩, rfl⟩
      · exact .inr (.inl ⟨_, _, _, rfl, h1, (early_set env host ready _ _ js ih _ _ _ _ _).2 ⟨h2, fun j hj c k hk => h4 c k ⟨j, hj, hk⟩⟩, rfl⟩)
      · exact .inr (.inr ⟨_, _, _, _, rfl, h1, (early_fix env host ready _ _ _ js ih _ _ _ _ _).2 ⟨h2, fun i t j ht hj c k hk =>
          h4 c k ⟨i, t, j, by rw [Nat.zero_add] at ht; exact ht, hj, hk⟩⟩, rfl⟩)
  | obj ms ih =>
    intro K h n v m
    simp only [pval, object_iff, room_early]
    constructor
    · rintro (⟨C, t, vs, us, rfl, h1, h2, rfl⟩ | ⟨c, vs, us, rfl, h1, h2, rfl⟩)
      · obtain ⟨h3, h4⟩ := (early_map env host ready _ _ ms ih _ _ _ _).1 h2
        exact ⟨.inl ⟨_, _, _, _, rfl, h1, h3, rfl⟩, fun c k ⟨p, hp, hk⟩ => h4 p hp c k hk⟩
      · obtain ⟨h3, h4⟩ := (early_obj env host hs ready _ _ ms ih _ _ _ _).1 h2
        refine ⟨.inr ⟨_, _, _, rfl, h1, h3, rfl⟩, ?_⟩
        rintro c' k ⟨p, hp, ⟨rfl, rfl⟩ | ⟨i, m, h5, h6, h7⟩⟩
        · exact (h4 p hp).1
        · exact (h4 p hp).2 i m h5 h6 c' k h7
    · rintro ⟨⟨C, t, vs, us, rfl, h1, h2, rfl⟩ | ⟨c, vs, us, rfl, h1, h2, rfl⟩, h4⟩
      · exact .inl ⟨_, _, _, _, rfl, h1, (early_map env host ready _ _ ms ih _ _ _ _).2 ⟨h2, fun p hp c k hk => h4 c k ⟨p, hp, hk⟩⟩, rfl⟩
      · exact .inr ⟨_, _, _, rfl, h1, (early_obj env host hs ready _ _ ms ih _ _ _ _).2 ⟨h2, fun p hp =>
          ⟨h4 c p.1 ⟨p, hp, .inl ⟨rfl, rfl⟩⟩, fun i m h5 h6 c' k h7 => h4 c' k ⟨p, hp, .inr ⟨i, m, h5, h6, h7⟩⟩⟩⟩, rfl⟩

theorem pval_stuck_early (j : Json) (K : List HClass) (h : Handler) (n : Nat) (p : Prim) (v : Val) (m : Nat) :
    pval env (host.early env ready) j K h n = .stuck p v m ↔ pval env host j K h n = .stuck p v m := by
  have hw : ∀ {α : Type} (f : α → Val) (r : LRes α), r.whole f ≠ .stuck p v m := by
    intro α f r; cases r <;> nofun
  cases j with
  | arr js =>
    cases h <;> simp only [pval, arrayFn] <;> split <;> split <;> simp [hw]
  | obj ms =>
    cases h <;> simp only [pval, objectFn] <;> split <;> split <;> simp [hw]
  | _ => exact Iff.rfl

include hs in
/-- A document is accepted before the initialisation iff it is accepted after it and has known keys only. -/
theorem accepted_early (t : Ty) (j : Json) (target : Val) (n : Nat) (v : Val) :
    parseBool env (host.early env ready) t (.document j) target n = .accepted v ↔
    parseBool env host t (.document j) target n = .accepted v ∧ AllKnown env ready t j := by
  rw [parseBool_document, parseBool_document, room_early]
  by_cases hr : room host [] (.parser t) = true
  · rw [if_pos hr, if_pos hr]
    have ha : AllKnown env ready t j ↔ ∀ c k, KeyIn env (openP env t target n).1 j c k → Knows env ready c k :=
      ⟨fun h c k hk => h c k ((keyAt_open env j c k t target n).2 hk), fun h c k hk => h c k ((keyAt_open env j c k t target n).1 hk)⟩
    rw [ha]
    generalize openP env t target n = o
    obtain ⟨h, w, n'⟩ := o
    simp only
    have hok := early_ok env host hs ready j [] h n'
    have hst := pval_stuck_early env host ready j [] h n'
    constructor
    · intro h1
      cases hp : pval env (host.early env ready) j [] h n' with
      | ok v' m =>
        rw [hp] at h1
        obtain ⟨h2, h3⟩ := (hok v' m).1 hp
        rw [h2]
        exact ⟨h1, h3⟩
      | stuck p v' m =>
        rw [hp] at h1
        rw [(hst p v' m).1 hp]
        refine ⟨h1, fun c k hk => ?_⟩
        obtain ⟨_, v2, rfl⟩ := pval_stuck _ _ _ _ _ _ _ _ _ hp
        exact hk.elim
      | _ => rw [hp] at h1; cases h1
    · rintro ⟨h1, h3⟩
      cases hp : pval env host j [] h n' with
      | ok v' m =>
        rw [hp] at h1
        rw [(hok v' m).2 ⟨hp, h3⟩]
        exact h1
      | stuck p v' m =>
        rw [hp] at h1
        rw [(hst p v' m).2 hp]
        exact h1
      | _ => rw [hp] at h1; cases h1
  · rw [if_neg hr, if_neg hr]
    exact ⟨fun h => (nomatch h), fun h => (nomatch h.1)⟩

end

end Verif.Core
