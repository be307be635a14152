import Verif.ParseLeftLemmas
import Verif.ParseMore

/-!
# Every text that is not read completely leaves something
-/

namespace Verif.Core
open Verif.Numeric Verif.EnumConv Verif.PerfectHash

/-- One of the sequences is the beginning of the other. -/
def Along (es fs : List Event) : Prop := es <+: fs ∨ fs <+: es

theorem Along.cons {es fs : List Event} {e : Event} (h : Along es (e :: fs)) : es = [] ∨ ∃ es', es = e :: es' ∧ Along es' fs := by
  cases es with
  | nil => exact .inl rfl
  | cons a es =>
    right
    rcases h with h | h
    · rw [List.cons_prefix_cons] at h
      exact ⟨es, by rw [h.1], .inl h.2⟩
    · rw [List.cons_prefix_cons] at h
      exact ⟨es, by rw [h.1], .inr h.2⟩

theorem Along.left {es fs gs : List Event} (h : Along es (fs ++ gs)) : Along es fs := by
  rcases h with h | h
  · exact List.prefix_or_prefix_of_prefix h (List.prefix_append fs gs)
  · exact .inr ((List.prefix_append fs gs).trans h)

theorem Along.right {es fs gs : List Event} (h : Along (fs ++ es) (fs ++ gs)) : Along es gs := by
  rcases h with h | h
  · exact .inl ((List.prefix_append_right_inj fs).1 h)
  · exact .inr ((List.prefix_append_right_inj fs).1 h)

theorem leafMeaning_calm (env : Env) (p : Prim) (j : Json) (h : Calm env j) : leafMeaning env p j ≠ .ub := by
  have hd := desPrim_calm env p j h
  unfold leafMeaning
  split
  · split <;> simp
  · revert hd
    cases desPrim env p j <;> simp

section
variable (env : Env) (G : Nat → Prop) (hG : StreamableClasses env G)

/-- A beginning of the document, or the document with something behind it: it is read, or it leaves something. -/
def Total (j : Json) : Prop := ∀ (t : Ty) (target : Val) (n : Nat) (es : List Event), Streamable G t → Along es (events j) →
  (∃ v n' more, meaning env j t target n = .yes v n' ∧ es = events j ++ more) ∨ ∃ w, Leaves env es t target n w

theorem many_total (t : Ty) (ht : Streamable G t) (js : List Json) (hj : ∀ j ∈ js, Total env G j) : ∀ (n : Nat) (es : List Event),
    Along es (eventsItems js) →
    (∃ vs n' more, manyM env t (meaningItems env js) n = .yes vs n' ∧ es = eventsItems js ++ more) ∨
    ∃ pre es' vs n' w, es = eventsItems pre ++ es' ∧ manyM env t (meaningItems env pre) n = .yes vs n' ∧ Leaves env es' t (env.ctor t) n' w := by
  induction js with
  | nil => intro n es _; exact .inl ⟨[], n, es, by simp [meaningItems, manyM, eventsItems]⟩
  | cons j js ih =>
    intro n es ha
    rw [eventsItems] at ha
    rcases hj j (by simp) t (env.ctor t) n es ht ha.left with ⟨v, n1, more, hm, rfl⟩ | ⟨w, hL⟩
    · rcases ih (fun j' h' => hj j' (by simp [h'])) n1 more ha.right with ⟨vs, n', more', hms, rfl⟩ | ⟨pre, es', vs, n', w, rfl, hms, hL⟩
      · exact .inl ⟨v :: vs, n', more', by simp [meaningItems, manyM, hm, hms, Means.bind, Means.map], by simp [eventsItems]⟩
      · exact .inr ⟨j :: pre, es', v :: vs, n', w, by simp [eventsItems], by simp [meaningItems, manyM, hm, hms, Means.bind, Means.map], hL⟩
    · exact .inr ⟨[], es, [], n, w, rfl, rfl, hL⟩

theorem each_total (js : List Json) (hj : ∀ j ∈ js, Total env G j) : ∀ (ts : List Ty) (targets : List Val) (n : Nat) (es : List Event),
    StreamableAll G ts → Along es (eventsItems js) →
    (∃ us n' more, js.length ≤ ts.length ∧ eachM env (meaningItems env js) (ts.take js.length) targets n = .yes us n' ∧ es = eventsItems js ++ more) ∨
    (∃ pre e es' t vs n' w, es = eventsItems pre ++ e :: es' ∧ eachM env (meaningItems env pre) (ts.take pre.length) targets n = .yes vs n' ∧
      ts[pre.length]? = some t ∧ e.startsValue = true ∧ Leaves env (e :: es') t ((fit env ts targets).getD pre.length (env.ctor t)) n' w) ∨
    ∃ pre es' vs n', es = eventsItems pre ++ es' ∧ pre.length ≤ ts.length ∧
      eachM env (meaningItems env pre) (ts.take pre.length) targets n = .yes vs n' ∧
      (es' = [] ∨ (pre.length = ts.length ∧ ∃ j more, es' = first j :: more)) := by
  induction js with
  | nil => intro ts targets n es _ _; exact .inl ⟨[], n, es, by simp, by simp [meaningItems, eachM], by simp [eventsItems]⟩
  | cons j js ih =>
    intro ts targets n es hts ha
    rw [eventsItems] at ha
    cases es with
    | nil => exact .inr (.inr ⟨[], [], [], n, rfl, by simp, by simp [meaningItems, eachM], .inl rfl⟩)
    | cons e es =>
    cases ts with
    | nil =>
      obtain ⟨tl, htl⟩ := events_first j
      have ha' := ha.left
      rw [htl] at ha'
      rcases ha'.cons with h | ⟨es', h, _⟩
      · cases h
      · exact .inr (.inr ⟨[], e :: es, [], n, rfl, by simp, by simp [meaningItems, eachM], .inr ⟨rfl, j, es', h⟩⟩)
    | cons t ts =>
    rcases hj j (by simp) t (targets.headD (env.ctor t)) n (e :: es) hts.1 ha.left with ⟨v, n1, more, hm, he⟩ | ⟨w, hL⟩
    · rw [he] at ha
      rw [he]
      have step : ∀ (pre : List Json) vs n', eachM env (meaningItems env pre) (ts.take pre.length) targets.tail n1 = .yes vs n' →
          eachM env (meaningItems env (j :: pre)) ((t :: ts).take (j :: pre).length) targets n = .yes (v :: vs) n' := by
        intro pre vs n' h
        rw [meaningItems, List.length_cons, List.take_succ_cons, eachM, hm, Means.bind, h, Means.map]
      rcases ih (fun j' h' => hj j' (by simp [h'])) ts targets.tail n1 more hts.2 ha.right with
        ⟨us, n', more', hl, hms, rfl⟩ | ⟨pre, e', es', t', vs, n', w, rfl, hms, ht', hst, hL⟩ | ⟨pre, es', vs, n', rfl, hl, hms, hes⟩
      · exact .inl ⟨v :: us, n', more', by simpa using hl, step _ _ _ hms, by simp [eventsItems]⟩
      · exact .inr (.inl ⟨j :: pre, e', es', t', v :: vs, n', w, by simp [eventsItems],
          step _ _ _ hms, by simpa using ht', hst, by simpa [fit] using hL⟩)
      · refine .inr (.inr ⟨j :: pre, es', v :: vs, n', by simp [eventsItems], by simpa using hl,
          step _ _ _ hms, ?_⟩)
        rcases hes with h | ⟨h, h'⟩
        · exact .inl h
        · exact .inr ⟨by simpa using h, h'⟩
    · refine .inr (.inl ⟨[], e, es, t, [], n, w, rfl, by simp [meaningItems, eachM], rfl, leaves_starts env hL e es rfl, ?_⟩)
      simpa [fit] using hL

theorem entries_total (t : Ty) (ht : Streamable G t) (ms : List (Str × Json)) (hj : ∀ p ∈ ms, Total env G p.2) :
    ∀ (kvs : List (Str × Val)) (n : Nat) (es : List Event), Along es (eventsMembers ms) →
    (∃ kvs' n' more, entriesM env t (meaningFields env ms) kvs n = .yes kvs' n' ∧ es = eventsMembers ms ++ more) ∨
    (∃ pre kvs' n', pre.map (·.1) ⊆ ms.map (·.1) ∧ entriesM env t (meaningFields env pre) kvs n = .yes kvs' n' ∧ es = eventsMembers pre) ∨
    ∃ pre k es' kvs' n' w, pre.map (·.1) ⊆ ms.map (·.1) ∧ k ∈ ms.map (·.1) ∧ es = eventsMembers pre ++ .key k :: es' ∧ entriesM env t (meaningFields env pre) kvs n = .yes kvs' n' ∧
      Leaves env es' t ((kvs'.lookup k).getD (env.ctor t)) n' w := by
  induction ms with
  | nil => intro kvs n es _; exact .inl ⟨kvs, n, es, by simp [meaningFields, entriesM], by simp [eventsMembers]⟩
  | cons p ms ih =>
    intro kvs n es ha
    obtain ⟨k, j⟩ := p
    rw [eventsMembers] at ha
    have hx := ha.cons
    clear ha
    rcases hx with rfl | ⟨es, rfl, ha⟩
    · exact .inr (.inl ⟨[], kvs, n, by simp, rfl, rfl⟩)
    rcases hj (k, j) (by simp) t ((kvs.lookup k).getD (env.ctor t)) n es ht ha.left with ⟨v, n1, more, hm, rfl⟩ | ⟨w, hL⟩
    · rcases ih (fun p' h' => hj p' (by simp [h'])) (mapAssign k v kvs) n1 more ha.right with
        ⟨kvs', n', more', hms, rfl⟩ | ⟨pre, kvs', n', hk, hms, rfl⟩ | ⟨pre, k', es', kvs', n', w, hk, hk', rfl, hms, hL⟩
      · exact .inl ⟨kvs', n', more', by simp only [meaningFields, entriesM, hm, hms, Means.bind], by simp [eventsMembers]⟩
      · exact .inr (.inl ⟨(k, j) :: pre, kvs', n', List.cons_subset_cons _ hk, by simp only [meaningFields, entriesM, hm, hms, Means.bind], by simp [eventsMembers]⟩)
      · exact .inr (.inr ⟨(k, j) :: pre, k', es', kvs', n', w, List.cons_subset_cons _ hk, List.mem_cons_of_mem _ hk', by simp [eventsMembers], by simp only [meaningFields, entriesM, hm, hms, Means.bind], hL⟩)
    · exact .inr (.inr ⟨[], k, es, kvs, n, w, by simp, by simp, rfl, rfl, hL⟩)

include hG in
theorem members_total (c : Nat) (hc : G c) (ms : List (Str × Json)) (hj : ∀ p ∈ ms, Total env G p.2) :
    ∀ (vs : List Val) (n : Nat) (es : List Event), Along es (eventsMembers ms) →
    (∃ vs' n' more, membersM env (env.members c) (meaningFields env ms) vs n = .yes vs' n' ∧ es = eventsMembers ms ++ more) ∨
    (∃ pre vs' n', pre.map (·.1) ⊆ ms.map (·.1) ∧ membersM env (env.members c) (meaningFields env pre) vs n = .yes vs' n' ∧ es = eventsMembers pre) ∨
    (∃ pre k more vs' n', pre.map (·.1) ⊆ ms.map (·.1) ∧ es = eventsMembers pre ++ .key k :: more ∧ membersM env (env.members c) (meaningFields env pre) vs n = .yes vs' n' ∧
      memberAt (env.members c) k = none) ∨
    ∃ pre k es' vs' n' i m w, pre.map (·.1) ⊆ ms.map (·.1) ∧ k ∈ ms.map (·.1) ∧ es = eventsMembers pre ++ .key k :: es' ∧ membersM env (env.members c) (meaningFields env pre) vs n = .yes vs' n' ∧
      memberAt (env.members c) k = some i ∧ (env.members c)[i]? = some m ∧
      Leaves env es' m.ty (if m.kind = .optional then env.ctor m.ty else vs'.getD i (env.ctor m.ty)) n' w := by
  induction ms with
  | nil => intro vs n es _; exact .inl ⟨vs, n, es, by simp [meaningFields, membersM], by simp [eventsMembers]⟩
  | cons p ms ih =>
    intro vs n es ha
    obtain ⟨k, j⟩ := p
    rw [eventsMembers] at ha
    have hx := ha.cons
    clear ha
    rcases hx with rfl | ⟨es, rfl, ha⟩
    · exact .inr (.inl ⟨[], vs, n, by simp, rfl, rfl⟩)
    cases hi : memberAt (env.members c) k with
    | none => exact .inr (.inr (.inl ⟨[], k, es, vs, n, by simp, rfl, rfl, hi⟩))
    | some i =>
    have hlt : i < (env.members c).length := by
      unfold memberAt at hi
      exact (List.findIdx?_eq_some_iff_getElem.1 hi).1
    have hget : (env.members c)[i]? = some (env.members c)[i] := List.getElem?_eq_getElem hlt
    have hst : Streamable G (env.members c)[i].ty := (hG c hc).2 _ (List.getElem_mem hlt)
    generalize (env.members c)[i] = m at hget hst
    rcases hj (k, j) (by simp) m.ty (if m.kind = .optional then env.ctor m.ty else vs.getD i (env.ctor m.ty)) n es hst ha.left with
      ⟨v, n1, more, hm, rfl⟩ | ⟨w, hL⟩
    · have step : ∀ (pre : List (Str × Json)), membersM env (env.members c) (meaningFields env ((k, j) :: pre)) vs n =
          membersM env (env.members c) (meaningFields env pre) (vs.set i (if m.kind = .optional then .present v else v)) n1 := by
        intro pre
        rw [meaningFields, membersM]
        simp only [hi, hget]
        by_cases ho : m.kind = .optional
        · simp only [if_pos ho] at hm ⊢
          rw [hm]; rfl
        · simp only [if_neg ho] at hm ⊢
          rw [hm]; rfl
      rcases ih (fun p' h' => hj p' (by simp [h'])) (vs.set i (if m.kind = .optional then .present v else v)) n1 more ha.right with
        ⟨vs', n', more', hms, rfl⟩ | ⟨pre, vs', n', hk, hms, rfl⟩ | ⟨pre, k', more, vs', n', hk, rfl, hms, hno⟩ |
          ⟨pre, k', es', vs', n', i', m', w, hk, hk', rfl, hms, hi', hm', hL⟩
      · exact .inl ⟨vs', n', more', by rw [step, hms], by simp [eventsMembers]⟩
      · exact .inr (.inl ⟨(k, j) :: pre, vs', n', List.cons_subset_cons _ hk, by rw [step, hms], by simp [eventsMembers]⟩)
      · exact .inr (.inr (.inl ⟨(k, j) :: pre, k', more, vs', n', List.cons_subset_cons _ hk, by simp [eventsMembers], by rw [step, hms], hno⟩))
      · exact .inr (.inr (.inr ⟨(k, j) :: pre, k', es', vs', n', i', m', w, List.cons_subset_cons _ hk, List.mem_cons_of_mem _ hk', by simp [eventsMembers], by rw [step, hms], hi', hm', hL⟩))
    · exact .inr (.inr (.inr ⟨[], k, es, vs, n, i, m, w, by simp, by simp, rfl, rfl, hi, hget, hL⟩))

/-- A value of another kind is refused with its first token. -/
theorem other_first {j : Json} {es : List Event} {P : Prop} (ha : Along es (events j)) (h0 : es = [] → P)
    (h1 : ∀ more, es = first j :: more → P) : P := by
  obtain ⟨tl, htl⟩ := events_first j
  rw [htl] at ha
  rcases ha.cons with h | ⟨es', h, _⟩
  · exact h0 h
  · exact h1 es' h

theorem component_total (C : Ty) (ts : List Ty) (hC : componentTys C = some ts) (hts : StreamableAll G ts) (js : List Json)
    (hj : ∀ j ∈ js, Total env G j) (target : Val) (n : Nat) (es : List Event) (ha : Along es (events (.arr js))) :
    (∃ us n' more, eachM env (meaningItems env js) ts target.components n = .yes us n' ∧ es = events (.arr js) ++ more) ∨ ∃ w, Leaves env es C target n w := by
  rw [events] at ha
  have hx := ha.cons
  clear ha
  rcases hx with rfl | ⟨es, rfl, ha⟩
  · exact .inr ⟨_, .ended C target n⟩
  rcases each_total env G js hj ts target.components n es hts ha.left with
    ⟨us, n', more, hl, hm, rfl⟩ | ⟨pre, e, es', t, vs, n', w, rfl, hm, ht, hst, hL⟩ | ⟨pre, es', vs, n', rfl, hl, hm, hes⟩
  · rcases ha.right.cons with rfl | ⟨more, rfl, _⟩
    · exact .inr ⟨_, .number C ts js [] target n us n' hC hl hm (.inl rfl)⟩
    · by_cases hlt : js.length < ts.length
      · exact .inr ⟨_, .number C ts js (.endArr :: more) target n us n' hC hl hm (.inr (.inl ⟨hlt, more, rfl⟩))⟩
      · rw [List.take_of_length_le (by omega)] at hm
        exact .inl ⟨us, n', more, hm, by simp [events]⟩
  · exact .inr ⟨_, .component C ts pre e es' t target n vs n' w hC hm ht hst hL⟩
  · refine .inr ⟨_, .number C ts pre es' target n vs n' hC hl hm ?_⟩
    rcases hes with h | h
    · exact .inl h
    · exact .inr (.inr h)

include hG in
theorem total_node (j : Json) (hc : Calm env j) (hi : ∀ j' ∈ j.items, Total env G j') (hf : ∀ p ∈ j.fields, Total env G p.2) :
    ∀ (t : Ty) (target : Val) (n : Nat) (es : List Event), Streamable G t → Along es (events j) →
      (∃ v n' more, meaning env j t target n = .yes v n' ∧ es = events j ++ more) ∨ ∃ w, Leaves env es t target n w
  | .prim p, target, n, es, ht, ha => by
    refine other_first ha (fun h => by subst h; exact .inr ⟨_, Leaves.ended (.prim p) target n⟩) fun more h => ?_
    subst h
    rw [meaning_prim]
    cases hl : leafMeaning env p j with
    | ub => exact absurd hl (leafMeaning_calm env p j hc)
    | fail => exact .inr ⟨_, .leaf p j more target n hl⟩
    | ok pv =>
      have : events j = [first j] := by
        cases j with
        | arr js => cases p <;> cases hl
        | obj ms => cases p <;> cases hl
        | _ => rfl
      exact .inl ⟨_, n, more, rfl, by rw [this]; rfl⟩
  | .vec t, target, n, es, ht, ha => by
    cases j with
    | arr js =>
      rw [events] at ha
      have hx := ha.cons
      clear ha
      rcases hx with rfl | ⟨es, rfl, ha⟩
      · exact .inr ⟨_, .ended (.vec t) target n⟩
      rcases many_total env G t ht.2 js hi n es ha.left with ⟨vs, n', more, hm, rfl⟩ | ⟨pre, es', vs, n', w, rfl, hm, hL⟩
      · rcases ha.right.cons with rfl | ⟨more, rfl, _⟩
        · exact .inr ⟨_, .vec t js [] target n vs n' _ hm (.ended _ _ _)⟩
        · refine .inl ⟨_, n', more, by simp only [meaning, nodeM, hm, Means.map]; rfl, by simp [events]⟩
      · exact .inr ⟨_, .vec t pre es' target n vs n' w hm hL⟩
    | _ =>
      exact other_first ha (fun h => by subst h; exact .inr ⟨_, Leaves.ended (.vec t) target n⟩) fun more h =>
        by subst h; exact .inr ⟨_, Leaves.array (.vec t) _ more target n rfl (by simp)⟩
  | .arr k t, target, n, es, ht, ha => by
    cases j with
    | arr js =>
      rcases component_total env G (.arr k t) _ rfl (streamableAll_replicate G k t ht) js hi target n es ha with ⟨us, n', more, hm, he⟩ | h
      · refine .inl ⟨_, n', more, by simp only [meaning, nodeM, hm, Means.map]; rfl, he⟩
      · exact .inr h
    | _ =>
      exact other_first ha (fun h => by subst h; exact .inr ⟨_, Leaves.ended (.arr k t) target n⟩) fun more h =>
        by subst h; exact .inr ⟨_, Leaves.array (.arr k t) _ more target n rfl (by simp)⟩
  | .set t, target, n, es, ht, ha => by
    cases j with
    | arr js =>
      rw [events] at ha
      have hx := ha.cons
      clear ha
      rcases hx with rfl | ⟨es, rfl, ha⟩
      · exact .inr ⟨_, .ended (.set t) target n⟩
      rcases many_total env G t ht.2 js hi n es ha.left with ⟨vs, n', more, hm, rfl⟩ | ⟨pre, es', vs, n', w, rfl, hm, hL⟩
      · rcases ha.right.cons with rfl | ⟨more, rfl, _⟩
        · exact .inr ⟨_, .set t js [] target n vs n' _ hm (.ended _ _ _)⟩
        · refine .inl ⟨_, n', more, by simp only [meaning, nodeM, hm, Means.map]; rfl, by simp [events]⟩
      · exact .inr ⟨_, .set t pre es' target n vs n' w hm hL⟩
    | _ =>
      exact other_first ha (fun h => by subst h; exact .inr ⟨_, Leaves.ended (.set t) target n⟩) fun more h =>
        by subst h; exact .inr ⟨_, Leaves.array (.set t) _ more target n rfl (by simp)⟩
  | .map o t, target, n, es, ht, ha => by
    cases j with
    | obj ms =>
      rw [events] at ha
      have hx := ha.cons
      clear ha
      rcases hx with rfl | ⟨es, rfl, ha⟩
      · exact .inr ⟨_, .ended (.map o t) target n⟩
      rcases entries_total env G t ht ms hf target.entries n es ha.left with
        ⟨kvs, n', more, hm, rfl⟩ | ⟨pre, kvs, n', -, hm, rfl⟩ | ⟨pre, k, es', kvs, n', w, -, -, rfl, hm, hL⟩
      · rcases ha.right.cons with rfl | ⟨more, rfl, _⟩
        · exact .inr ⟨_, by simpa using .mapEnded o t ms target n kvs n' hm⟩
        · refine .inl ⟨_, n', more, by simp only [meaning, nodeM, hm, Means.map]; rfl, by simp [events]⟩
      · exact .inr ⟨_, .mapEnded o t pre target n kvs n' hm⟩
      · exact .inr ⟨_, .entry o t pre k es' target n kvs n' w hm hL⟩
    | _ =>
      exact other_first ha (fun h => by subst h; exact .inr ⟨_, Leaves.ended (.map o t) target n⟩) fun more h =>
        by subst h; exact .inr ⟨_, Leaves.object (.map o t) _ more target n rfl (by simp)⟩
  | .dict t, target, n, es, ht, ha => by
    cases j with
    | arr js =>
      rw [events] at ha
      have hx := ha.cons
      clear ha
      rcases hx with rfl | ⟨es, rfl, ha⟩
      · exact .inr ⟨_, .ended (.dict t) target n⟩
      rcases many_total env G (.tuple [.prim .str, t]) ⟨rfl, ht, trivial⟩ js hi n es ha.left with
        ⟨vs, n', more, hm, rfl⟩ | ⟨pre, es', vs, n', w, rfl, hm, hL⟩
      · rcases ha.right.cons with rfl | ⟨more, rfl, _⟩
        · exact .inr ⟨_, .dict t js [] target n vs n' _ hm (.ended _ _ _)⟩
        · refine .inl ⟨_, n', more, by simp only [meaning, nodeM, hm, Means.map]; rfl, by simp [events]⟩
      · exact .inr ⟨_, .dict t pre es' target n vs n' w hm hL⟩
    | _ =>
      exact other_first ha (fun h => by subst h; exact .inr ⟨_, Leaves.ended (.dict t) target n⟩) fun more h =>
        by subst h; exact .inr ⟨_, Leaves.array (.dict t) _ more target n rfl (by simp)⟩
  | .tuple ts, target, n, es, ht, ha => by
    cases j with
    | arr js =>
      rcases component_total env G (.tuple ts) _ rfl ht js hi target n es ha with ⟨us, n', more, hm, he⟩ | h
      · refine .inl ⟨_, n', more, by simp only [meaning, nodeM, hm, Means.map]; rfl, he⟩
      · exact .inr h
    | _ =>
      exact other_first ha (fun h => by subst h; exact .inr ⟨_, Leaves.ended (.tuple ts) target n⟩) fun more h =>
        by subst h; exact .inr ⟨_, Leaves.array (.tuple ts) _ more target n rfl (by simp)⟩
  | .variant ts, target, n, es, ht, ha => ht.elim
  | .cls c, target, n, es, ht, ha => by
    cases j with
    | obj ms =>
      rw [events] at ha
      have hx := ha.cons
      clear ha
      rcases hx with rfl | ⟨es, rfl, ha⟩
      · exact .inr ⟨_, .ended (.cls c) target n⟩
      rcases members_total env G hG c ht ms hf (fitMembers env (env.members c) target.members) n es ha.left with
        ⟨vs, n', more, hm, rfl⟩ | ⟨pre, vs, n', -, hm, rfl⟩ | ⟨pre, k, more, vs, n', -, rfl, hm, hno⟩ |
          ⟨pre, k, es', vs, n', i, m, w, -, -, rfl, hm, hi, hmi, hL⟩
      · rcases ha.right.cons with rfl | ⟨more, rfl, _⟩
        · exact .inr ⟨_, by simpa using .clsEnded c ms target n vs n' hm⟩
        · refine .inl ⟨_, n', more, by simp only [meaning, nodeM, hm, Means.map]; rfl, by simp [events]⟩
      · exact .inr ⟨_, .clsEnded c pre target n vs n' hm⟩
      · exact .inr ⟨_, .unknown c pre k more target n vs n' hm hno⟩
      · exact .inr ⟨_, .member c pre k es' target n vs n' i m w hm hi hmi hL⟩
    | _ =>
      exact other_first ha (fun h => by subst h; exact .inr ⟨_, Leaves.ended (.cls c) target n⟩) fun more h =>
        by subst h; exact .inr ⟨_, Leaves.object (.cls c) _ more target n rfl (by simp)⟩
  | .uptr t, target, n, es, ht, ha => by
    rcases total_node j hc hi hf t (env.ctor t) n es ht ha with ⟨v, n', more, hm, he⟩ | ⟨w, hL⟩
    · rw [meaning_node] at hm ⊢
      exact .inl ⟨_, n', more, by rw [nodeM, hm]; rfl, he⟩
    · exact .inr ⟨_, .uptr t es target n w hL⟩
  | .sptr t, target, n, es, ht, ha => by
    rcases total_node j hc hi hf t (env.ctor t) (n + 1) es ht ha with ⟨v, n', more, hm, he⟩ | ⟨w, hL⟩
    · rw [meaning_node] at hm ⊢
      exact .inl ⟨_, n', more, by rw [nodeM, hm]; rfl, he⟩
    · exact .inr ⟨_, .sptr t es target n w hL⟩

include hG in
theorem total : ∀ j : Json, Calm env j → Total env G j := by
  intro j
  induction hs : sizeOf j using Nat.strongRecOn generalizing j with
  | _ s ih =>
    subst hs
    intro hc
    refine total_node env G hG j hc (fun j' h' => ?_) (fun p h' => ?_)
    · cases j <;> simp only [Json.items, List.not_mem_nil] at h'
      rename_i js
      refine ih _ ?_ j' rfl (hc.item h')
      have := List.sizeOf_lt_of_mem h'
      simp only [Json.arr.sizeOf_spec]; omega
    · cases j <;> simp only [Json.fields, List.not_mem_nil] at h'
      rename_i ms
      refine ih _ ?_ p.2 rfl (hc.field h')
      have := List.sizeOf_lt_of_mem h'
      obtain ⟨k, v⟩ := p
      simp only [Json.obj.sizeOf_spec, Prod.mk.sizeOf_spec] at this ⊢
      omega

/-! ## What is not named -/

theorem entriesM_lookup (env : Env) (t : Ty) (ms : List (Str × Json)) : ∀ (kvs kvs' : List (Str × Val)) (n n' : Nat),
    entriesM env t (meaningFields env ms) kvs n = .yes kvs' n' → ∀ k, k ∉ ms.map (·.1) → kvs'.lookup k = kvs.lookup k := by
  induction ms with
  | nil =>
    intro kvs kvs' n n' h k _
    simp only [meaningFields, entriesM, Means.yes.injEq] at h
    rw [h.1]
  | cons p ms ih =>
    obtain ⟨k', j⟩ := p
    intro kvs kvs' n n' h k hk
    simp only [List.map_cons, List.mem_cons, not_or] at hk
    rw [meaningFields] at h
    obtain ⟨v, n1, -, h2⟩ := entriesM_cons h
    rw [ih _ _ _ _ h2 k hk.2, lookup_mapAssign_ne k k' v hk.1]

theorem membersM_get (env : Env) (mbs : List Member) (ms : List (Str × Json)) : ∀ (vs vs' : List Val) (n n' : Nat),
    membersM env mbs (meaningFields env ms) vs n = .yes vs' n' → ∀ i, (∀ k ∈ ms.map (·.1), memberAt mbs k ≠ some i) → vs'[i]? = vs[i]? := by
  induction ms with
  | nil =>
    intro vs vs' n n' h i _
    simp only [meaningFields, membersM, Means.yes.injEq] at h
    rw [h.1]
  | cons p ms ih =>
    obtain ⟨k', j⟩ := p
    intro vs vs' n n' h i hi
    rw [meaningFields] at h
    obtain ⟨i', m, v, n1, hi', -, -, h2⟩ := membersM_cons h
    have hne : i' ≠ i := by
      rintro rfl
      exact hi k' (by simp) hi'
    rw [ih _ _ _ _ h2 i (fun k hk => hi k (List.mem_cons_of_mem _ hk)), List.getElem?_set_ne hne]

end

end Verif.Core
