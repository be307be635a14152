import Verif.ParsePure

/-!
# The handler stack computes `pval`
-/

namespace Verif.Core
open Verif.Numeric Verif.EnumConv Verif.PerfectHash

/-- Handlers of a `JsonParser<T>` that has not received an event. -/
def Handler.isOpen : Handler → Bool
  | .leaf _ _ | .vecStart _ _ | .setStart _ _ | .fixStart _ _ _ | .mapStart _ _ _ | .objStart _ _ | .unsupported _ => true
  | _ => false

theorem openP_isOpen (env : Env) : ∀ (t : Ty) (target : Val) (n : Nat), (openP env t target n).1.isOpen = true
  | .uptr t, _, n => openP_isOpen env t (env.ctor t) n
  | .sptr t, _, n => openP_isOpen env t (env.ctor t) (n + 1)
  | .cls c, _, _ => by simp only [openP]; split <;> rfl
  | .prim _, _, _ | .vec _, _, _ | .arr _ _, _, _ | .set _, _, _ | .map _ _, _, _ | .dict _, _, _ | .tuple _, _, _ | .variant _, _, _ => rfl

theorem pstep_open (env : Env) (host : Host) (f : Frame) (rest : List Frame) (fin : Option Val) (n : Nat) (e : Event)
    (h : f.handler.isOpen = true) : pstep env host ⟨f :: rest, fin, n⟩ e = openStep env host f rest fin n e := by
  obtain ⟨c, hd, l, w⟩ := f
  cases hd <;> first | rfl | cases h

/-- What follows the events of a value. -/
def after (env : Env) (host : Host) (f : Frame) (rest : List Frame) (fin : Option Val) (more : List Event) : PartRes Val → POut
  | .ok v n => prun env host (popTo f.wrap f.link v rest fin n) more
  | .stuck p v n => prun env host ⟨{ f with handler := .leaf p v } :: rest, fin, n⟩ more
  | .fail => .fail
  | .threw => .threw
  | .ub => .ub

/-- The events of `j` do what `pval` says. -/
def Delivers (env : Env) (host : Host) (j : Json) : Prop :=
  ∀ (f : Frame) (rest : List Frame) (fin : Option Val) (n : Nat) (more : List Event), f.handler.isOpen = true →
    prun env host ⟨f :: rest, fin, n⟩ (events j ++ more) =
      after env host f rest fin more (pval env host j (rest.map (·.cls)) f.handler n)

theorem prun_cons (env : Env) (host : Host) (s : PState) (e : Event) (es : List Event) : prun env host s (e :: es) =
    match pstep env host s e with
    | .go s' => prun env host s' es
    | .fail => .fail
    | .threw => .threw
    | .ub => .ub
    | .noHandler => .noHandler := rfl

theorem events_first (j : Json) : ∃ es, events j = first j :: es := by
  cases j <;> simp [events, first]

theorem leafParse_scalar {env : Env} {p : Prim} {j : Json} {pv : PVal} (h : leafParse env p (first j) = .ok pv) :
    events j = [first j] := by
  cases j with
  | arr js => cases p <;> cases h
  | obj ms => cases p <;> cases h
  | _ => rfl

/-- A handler that stays on the stack refuses everything but strings. -/
theorem stuck_dead (env : Env) (host : Host) (f : Frame) (p : Prim) (hp : p.stays = true) (rest : List Frame) (fin : Option Val) (n : Nat)
    (es : List Event) (e : Event) (he : ∀ s, e ≠ .str s) (more : List Event) (v : Val) :
    prun env host ⟨{ f with handler := .leaf p v } :: rest, fin, n⟩ (es ++ e :: more) = .fail := by
  cases p with
  | enumStr table =>
    induction es generalizing v with
    | nil =>
      simp only [List.nil_append, prun_cons]
      cases e <;> first | rfl | exact absurd rfl (he _)
    | cons e' es ih =>
      simp only [List.cons_append, prun_cons, pstep]
      cases e' with
      | str s =>
        simp only [openStep, leafParse]
        cases enumValue table s with
        | none => rfl
        | some x => exact ih (.prim (.int x))
      | _ => rfl
  | _ => cases hp

theorem pval_stuck (env : Env) (host : Host) (j : Json) (K : List HClass) (h : Handler) (n : Nat) (p : Prim) (v : Val) (n' : Nat)
    (hs : pval env host j K h n = .stuck p v n') : p.stays = true ∧ ∃ v', h = .leaf p v' := by
  have key : ∀ e, scalar env e K h n = .stuck p v n' → p.stays = true ∧ ∃ v', h = .leaf p v' := by
    intro e he
    cases h <;> simp only [scalar] at he <;> try cases he
    split at he
    · cases he
    · cases he
    · split at he
      · cases he; exact ⟨by assumption, _, rfl⟩
      · cases he
  have hw : ∀ {α : Type} (f : α → Val) (r : LRes α), r.whole f ≠ .stuck p v n' := by
    intro α f r; cases r <;> simp [LRes.whole]
  cases j with
  | null => rw [pval] at hs; exact key _ hs
  | bool b => rw [pval] at hs; exact key _ hs
  | num m => rw [pval] at hs; exact key _ hs
  | str s => rw [pval] at hs; exact key _ hs
  | arr js =>
    rw [pval] at hs
    cases h <;> simp only [arrayFn] at hs <;> try cases hs
    all_goals (split at hs <;> first | exact absurd hs (hw _ _) | cases hs)
  | obj ms =>
    rw [pval] at hs
    cases h <;> simp only [objectFn] at hs <;> try cases hs
    all_goals (split at hs <;> first | exact absurd hs (hw _ _) | cases hs)

/-- What follows the parts of a value. -/
def afterParts (env : Env) (host : Host) {α : Type} (mk : α → Val) (f : Frame) (rest : List Frame) (fin : Option Val) (more : List Event) :
    LRes α → POut
  | .ok v n => prun env host (popTo f.wrap f.link (mk v) rest fin n) more
  | .fail => .fail
  | .threw => .threw
  | .ub => .ub

theorem after_whole (env : Env) (host : Host) {α : Type} (mk : α → Val) (f : Frame) (rest : List Frame) (fin : Option Val) (more : List Event)
    (r : LRes α) : after env host f rest fin more (r.whole mk) = afterParts env host mk f rest fin more r := by
  cases r <;> rfl

/-- An element with a handler of its own: the handler that was on top delivers the first event to the new
handler. -/
theorem push_item (env : Env) (host : Host) {α : Type} (mk : α → Val) (j : Json) (hj : Delivers env host j) (f p : Frame) (rest : List Frame)
    (fin : Option Val) (n : Nat) (c : HClass) (t : Ty) (target : Val) (link : Link) (more : List Event) (es : List Event) (e : Event)
    (he : ∀ s, e ≠ .str s) (k : Val → Nat → LRes α)
    (hk : ∀ v n', prun env host (popTo id link v (p :: rest) fin n') (es ++ e :: more) = afterParts env host mk f rest fin more (k v n')) :
    (match emplaceP env host (p :: rest) n c t target link id fun g n' => openStep env host g (p :: rest) fin n' (first j) with
      | .go s' => prun env host s' ((events j).tail ++ (es ++ e :: more))
      | .fail => .fail
      | .threw => .threw
      | .ub => .ub
      | .noHandler => .noHandler) =
      afterParts env host mk f rest fin more
        (withChild env host (p.cls :: rest.map (·.cls)) c t target n id (pval env host j) k) := by
  unfold emplaceP withChild
  simp only [List.map_cons]
  by_cases hr : room host (p.cls :: rest.map (·.cls)) c = true
  · simp only [if_pos hr]
    have ho := openP_isOpen env t target n
    generalize openP env t target n = o at ho ⊢
    obtain ⟨h, w, n'⟩ := o
    simp only at ho ⊢
    have hf := hj ⟨c, h, link, fun v => id (w v)⟩ (p :: rest) fin n' (es ++ e :: more) ho
    obtain ⟨tl, htl⟩ := events_first j
    rw [htl] at hf ⊢
    rw [List.cons_append, prun_cons, pstep_open env host _ _ _ _ _ ho] at hf
    rw [List.tail_cons, hf]
    have hst := pval_stuck env host j (p.cls :: rest.map (·.cls)) h n'
    simp only [List.map_cons]
    generalize pval env host j (p.cls :: rest.map (·.cls)) h n' = r at hst ⊢
    cases r with
    | ok v n'' => exact hk (w v) n''
    | stuck q v n'' => exact stuck_dead env host _ q (hst q v n'' rfl).1 _ _ _ es e he more v
    | _ => rfl
  · simp only [if_neg hr]; rfl

theorem run_vec (env : Env) (host : Host) (t : Ty) (js : List Json) (hj : ∀ j ∈ js, Delivers env host j) (f : Frame) (rest : List Frame)
    (fin : Option Val) (n : Nat) (vs : List Val) (more : List Event) :
    prun env host ⟨{ f with handler := .vecItems t vs } :: rest, fin, n⟩ (eventsItems js ++ .endArr :: more) =
      afterParts env host .seq f rest fin more (loopVec env host (f.cls :: rest.map (·.cls)) t (pitems env host js) vs n) := by
  induction js generalizing vs n with
  | nil => rfl
  | cons j js ih =>
    obtain ⟨tl, htl⟩ := events_first j
    have ih' := ih fun j' hj' => hj j' (by simp [hj'])
    rw [eventsItems, pitems, List.append_assoc]
    rw [htl, List.cons_append, prun_cons]
    have hne : first j ≠ .endArr := by cases j <;> simp [first]
    have hps : pstep env host ⟨{ f with handler := .vecItems t vs } :: rest, fin, n⟩ (first j) =
        match direct t with
        | some p =>
            (match leafParse env p (first j) with
            | .ub => .ub
            | .fail => .fail
            | .ok pv => .go ⟨{ f with handler := .vecItems t (vs ++ [.prim pv]) } :: rest, fin, n⟩)
        | none =>
            if isToken t (first j) then
              emplaceP env host ({ f with handler := .vecItems t vs } :: rest) n (.parser t) t (env.ctor t) .item id fun g n' =>
                openStep env host g ({ f with handler := .vecItems t vs } :: rest) fin n' (first j)
            else .fail := by
      cases j <;> rfl
    rw [hps, loopVec]
    cases hd : direct t with
    | some p =>
      simp only
      cases hl : leafParse env p (first j) with
      | ub => rfl
      | fail => rfl
      | ok pv =>
        have := leafParse_scalar hl
        rw [htl] at this
        simp only [List.cons.injEq, true_and] at this
        subst this
        exact ih' n (vs ++ [.prim pv])
    | none =>
      simp only
      by_cases hi : isToken t (first j) = true
      · simp only [if_pos hi]
        have := push_item env host .seq j (hj j (by simp)) f { f with handler := .vecItems t vs } rest fin n (.parser t) t (env.ctor t) .item
          more (eventsItems js) .endArr (by simp)
          (fun v n' => loopVec env host (f.cls :: rest.map (·.cls)) t (pitems env host js) (vs ++ [v]) n')
          (fun v n' => ih' n' (vs ++ [v]))
        rw [htl] at this
        exact this
      · simp only [if_neg hi]; rfl

theorem run_set (env : Env) (host : Host) (t : Ty) (js : List Json) (hj : ∀ j ∈ js, Delivers env host j) (f : Frame) (rest : List Frame)
    (fin : Option Val) (n : Nat) (storage vs : List Val) (more : List Event) :
    prun env host ⟨{ f with handler := .setItems t storage vs } :: rest, fin, n⟩ (eventsItems js ++ .endArr :: more) =
      afterParts env host .set f rest fin more (loopSet env host (f.cls :: rest.map (·.cls)) t (pitems env host js) storage vs n) := by
  induction js generalizing storage vs n with
  | nil => rfl
  | cons j js ih =>
    obtain ⟨tl, htl⟩ := events_first j
    have ih' := ih fun j' hj' => hj j' (by simp [hj'])
    rw [eventsItems, pitems, List.append_assoc]
    rw [htl, List.cons_append, prun_cons]
    have hps : pstep env host ⟨{ f with handler := .setItems t storage vs } :: rest, fin, n⟩ (first j) =
        match direct t with
        | some p =>
            (match leafParse env p (first j) with
            | .ub => .ub
            | .fail => .fail
            | .ok pv => .go ⟨{ f with handler := .setItems t storage (setInsert env.less (.prim pv) vs) } :: rest, fin, n⟩)
        | none =>
            if isToken t (first j) then
              emplaceP env host ({ f with handler := .setItems t storage vs } :: rest) n (.parser t) t (env.ctor t) .item id fun g n' =>
                openStep env host g ({ f with handler := .setItems t storage vs } :: rest) fin n' (first j)
            else .fail := by
      cases j <;> rfl
    rw [hps, loopSet]
    cases hd : direct t with
    | some p =>
      simp only
      cases hl : leafParse env p (first j) with
      | ub => rfl
      | fail => rfl
      | ok pv =>
        have := leafParse_scalar hl
        rw [htl] at this
        simp only [List.cons.injEq, true_and] at this
        subst this
        exact ih' n storage _
    | none =>
      simp only
      by_cases hi : isToken t (first j) = true
      · simp only [if_pos hi]
        have := push_item env host .set j (hj j (by simp)) f { f with handler := .setItems t storage vs } rest fin n (.parser t) t (env.ctor t) .item
          more (eventsItems js) .endArr (by simp)
          (fun v n' => loopSet env host (f.cls :: rest.map (·.cls)) t (pitems env host js) (storage ++ [v]) vs n')
          (fun v n' => ih' n' (storage ++ [v]) vs)
        rw [htl] at this
        exact this
      · simp only [if_neg hi]; rfl

theorem run_fix (env : Env) (host : Host) (C : Ty) (ts : List Ty) (js : List Json) (hj : ∀ j ∈ js, Delivers env host j) (f : Frame)
    (rest : List Frame) (fin : Option Val) (n i : Nat) (c : HClass) (vs : List Val) (more : List Event) :
    prun env host ⟨{ f with cls := c, handler := .fixItems C ts i vs } :: rest, fin, n⟩ (eventsItems js ++ .endArr :: more) =
      afterParts env host .tup f rest fin more (loopFix env host (rest.map (·.cls)) C ts (pitems env host js) i vs n) := by
  induction js generalizing i c vs n with
  | nil =>
    simp only [eventsItems, List.nil_append, prun_cons, pstep, pitems, loopFix]
    cases hi : ts[i]? with
    | none => simp only [if_true]; rfl
    | some t => simp only [reduceCtorEq, if_false]; rfl
  | cons j js ih =>
    obtain ⟨tl, htl⟩ := events_first j
    have ih' := ih fun j' hj' => hj j' (by simp [hj'])
    rw [eventsItems, pitems, List.append_assoc]
    rw [htl, List.cons_append, prun_cons, loopFix]
    have hsv : (first j).startsValue = true := by cases j <;> rfl
    have hne : first j ≠ .endArr := by cases j <;> simp [first]
    cases hi : ts[i]? with
    | none =>
      simp only [pstep, hi]
      generalize first j = e at hne
      cases e <;> first | rfl | exact absurd rfl hne
    | some t =>
      simp only [pstep, hi, hsv, if_true]
      by_cases hr : room host (rest.map (·.cls)) (.fixed C (i + 1)) = true
      · simp only [if_pos hr]
        have := push_item env host .tup j (hj j (by simp)) f { f with cls := .fixed C (i + 1), handler := .fixItems C ts (i + 1) vs } rest fin n
          (.parser t) t (vs.getD i (env.ctor t)) (.nth i) more (eventsItems js) .endArr (by simp)
          (fun v n' => loopFix env host (rest.map (·.cls)) C ts (pitems env host js) (i + 1) (vs.set i v) n')
          (fun v n' => ih' n' (i + 1) (.fixed C (i + 1)) (vs.set i v))
        rw [htl] at this
        exact this
      · simp only [if_neg hr]; rfl

/-- A member or entry: the key puts the new handler on the stack. -/
theorem push_key (env : Env) (host : Host) {α : Type} (mk : α → Val) (j : Json) (hj : Delivers env host j) (f p : Frame) (rest : List Frame)
    (fin : Option Val) (n : Nat) (c : HClass) (t : Ty) (target : Val) (link : Link) (outer : Val → Val) (more : List Event) (es : List Event)
    (e : Event) (he : ∀ s, e ≠ .str s) (k : Val → Nat → LRes α)
    (hk : ∀ v n', prun env host (popTo id link v (p :: rest) fin n') (es ++ e :: more) = afterParts env host mk f rest fin more (k v n')) :
    (match emplaceP env host (p :: rest) n c t target link outer fun g n' => .go ⟨g :: p :: rest, fin, n'⟩ with
      | .go s' => prun env host s' (events j ++ (es ++ e :: more))
      | .fail => .fail
      | .threw => .threw
      | .ub => .ub
      | .noHandler => .noHandler) =
      afterParts env host mk f rest fin more
        (withChild env host (p.cls :: rest.map (·.cls)) c t target n outer (pval env host j) k) := by
  unfold emplaceP withChild
  simp only [List.map_cons]
  by_cases hr : room host (p.cls :: rest.map (·.cls)) c = true
  · simp only [if_pos hr]
    have ho := openP_isOpen env t target n
    generalize openP env t target n = o at ho ⊢
    obtain ⟨h, w, n'⟩ := o
    simp only at ho ⊢
    rw [hj ⟨c, h, link, fun v => outer (w v)⟩ (p :: rest) fin n' (es ++ e :: more) ho]
    have hst := pval_stuck env host j (p.cls :: rest.map (·.cls)) h n'
    simp only [List.map_cons]
    generalize pval env host j (p.cls :: rest.map (·.cls)) h n' = r at hst ⊢
    cases r with
    | ok v n'' => exact hk (outer (w v)) n''
    | stuck q v n'' => exact stuck_dead env host _ q (hst q v n'' rfl).1 _ _ _ es e he more v
    | _ => rfl
  · simp only [if_neg hr]; rfl

theorem run_map (env : Env) (host : Host) (C t : Ty) (ms : List (Str × Json)) (hj : ∀ p ∈ ms, Delivers env host p.2) (f : Frame)
    (rest : List Frame) (fin : Option Val) (n : Nat) (kvs : List (Str × Val)) (more : List Event) :
    prun env host ⟨{ f with handler := .mapItems C t kvs } :: rest, fin, n⟩ (eventsMembers ms ++ .endObj :: more) =
      afterParts env host .map f rest fin more (loopMap env host (f.cls :: rest.map (·.cls)) t (pfields env host ms) kvs n) := by
  induction ms generalizing kvs n with
  | nil => rfl
  | cons q ms ih =>
    obtain ⟨key, j⟩ := q
    have ih' := ih fun p hp => hj p (by simp [hp])
    rw [eventsMembers, pfields, List.cons_append, List.append_assoc, prun_cons, loopMap]
    exact push_key env host .map j (hj (key, j) (by simp)) f { f with handler := .mapItems C t kvs } rest fin n (.parser t) t
      ((kvs.lookup key).getD (env.ctor t)) (.key key) id more (eventsMembers ms) .endObj (by simp)
      (fun v n' => loopMap env host (f.cls :: rest.map (fun g : Frame => g.cls)) t (pfields env host ms) (mapAssign key v kvs) n')
      (fun v n' => ih' n' (mapAssign key v kvs))

theorem run_obj (env : Env) (host : Host) (c : Nat) (ms : List (Str × Json)) (hj : ∀ p ∈ ms, Delivers env host p.2) (f : Frame)
    (rest : List Frame) (fin : Option Val) (n : Nat) (vs : List Val) (more : List Event) :
    prun env host ⟨{ f with handler := .objItems c vs } :: rest, fin, n⟩ (eventsMembers ms ++ .endObj :: more) =
      afterParts env host .obj f rest fin more (loopObj env host (f.cls :: rest.map (·.cls)) c (pfields env host ms) vs n) := by
  induction ms generalizing vs n with
  | nil => rfl
  | cons q ms ih =>
    obtain ⟨key, j⟩ := q
    have ih' := ih fun p hp => hj p (by simp [hp])
    rw [eventsMembers, pfields, List.cons_append, List.append_assoc, prun_cons, loopObj]
    simp only [pstep]
    cases selectMember env host c key with
    | reject => rfl
    | memoryError => rfl
    | member i =>
      simp only
      cases (env.members c)[i]? with
      | none => rfl
      | some m =>
        simp only
        by_cases ho : m.kind = .optional
        · simp only [if_pos ho]
          exact push_key env host .obj j (hj (key, j) (by simp)) f { f with handler := .objItems c vs } rest fin n (.optional m.ty) m.ty
            (env.ctor m.ty) (.member i) .present more (eventsMembers ms) .endObj (by simp)
            (fun v n' => loopObj env host (f.cls :: rest.map (fun g : Frame => g.cls)) c (pfields env host ms) (vs.set i v) n')
            (fun v n' => ih' n' (vs.set i v))
        · simp only [if_neg ho]
          exact push_key env host .obj j (hj (key, j) (by simp)) f { f with handler := .objItems c vs } rest fin n (.parser m.ty) m.ty
            (vs.getD i (env.ctor m.ty)) (.member i) id more (eventsMembers ms) .endObj (by simp)
            (fun v n' => loopObj env host (f.cls :: rest.map (fun g : Frame => g.cls)) c (pfields env host ms) (vs.set i v) n')
            (fun v n' => ih' n' (vs.set i v))

theorem follows_scalar (env : Env) (host : Host) (j : Json) (e : Event) (hj : events j = [e]) (hv : pval env host j = scalar env e)
    (ha : e ≠ .startArr) (ho : e ≠ .startObj) : Delivers env host j := by
  intro f rest fin n more hop
  obtain ⟨c, h, l, w⟩ := f
  rw [hj, List.cons_append, List.nil_append, prun_cons, pstep_open env host _ _ _ _ _ hop, hv]
  cases h with
  | leaf p v =>
    simp only [openStep, scalar]
    cases leafParse env p e with
    | ub => rfl
    | fail => rfl
    | ok pv =>
      simp only
      cases p.stays <;> rfl
  | unsupported v => rfl
  | vecStart t vs => simp only [openStep, scalar]; cases e <;> first | rfl | exact absurd rfl ha
  | setStart t vs => simp only [openStep, scalar]; cases e <;> first | rfl | exact absurd rfl ha
  | fixStart C ts vs => simp only [openStep, scalar]; cases e <;> first | rfl | exact absurd rfl ha
  | mapStart C t vs => simp only [openStep, scalar]; cases e <;> first | rfl | exact absurd rfl ho
  | objStart c vs => simp only [openStep, scalar]; cases e <;> first | rfl | exact absurd rfl ho
  | _ => cases hop

theorem follows_arr (env : Env) (host : Host) (js : List Json) (hj : ∀ j ∈ js, Delivers env host j) : Delivers env host (.arr js) := by
  intro f rest fin n more hop
  obtain ⟨c, h, l, w⟩ := f
  rw [events, List.cons_append, List.append_assoc, prun_cons, pstep_open env host _ _ _ _ _ hop, pval]
  cases h with
  | leaf p v => simp only [openStep, arrayFn]; cases p <;> rfl
  | vecStart t vs =>
    simp only [openStep, arrayFn, replaceTop]
    by_cases hr : room host (rest.map (·.cls)) (.vecItems t) = true
    · simp only [if_pos hr]; rw [after_whole]; exact run_vec env host t js hj ⟨.vecItems t, .vecItems t vs, l, w⟩ rest fin n vs more
    · simp only [if_neg hr]; rfl
  | setStart t vs =>
    simp only [openStep, arrayFn, replaceTop]
    by_cases hr : room host (rest.map (·.cls)) (.setItems t) = true
    · simp only [if_pos hr]; rw [after_whole]; exact run_set env host t js hj ⟨.setItems t, .setItems t [] vs, l, w⟩ rest fin n [] vs more
    · simp only [if_neg hr]; rfl
  | fixStart C ts vs =>
    simp only [openStep, arrayFn, replaceTop]
    by_cases hr : room host (rest.map (·.cls)) (.fixed C 0) = true
    · simp only [if_pos hr]; rw [after_whole]; exact run_fix env host C ts js hj ⟨.fixed C 0, .fixItems C ts 0 vs, l, w⟩ rest fin n 0 (.fixed C 0) vs more
    · simp only [if_neg hr]; rfl
  | mapStart C t kvs => rfl
  | objStart c vs => rfl
  | unsupported v => rfl
  | _ => cases hop

theorem follows_obj (env : Env) (host : Host) (ms : List (Str × Json)) (hj : ∀ p ∈ ms, Delivers env host p.2) : Delivers env host (.obj ms) := by
  intro f rest fin n more hop
  obtain ⟨c, h, l, w⟩ := f
  rw [events, List.cons_append, List.append_assoc, prun_cons, pstep_open env host _ _ _ _ _ hop, pval]
  cases h with
  | leaf p v => simp only [openStep, objectFn]; cases p <;> rfl
  | mapStart C t kvs =>
    simp only [openStep, objectFn, replaceTop]
    by_cases hr : room host (rest.map (·.cls)) (.mapItems C) = true
    · simp only [if_pos hr]; rw [after_whole]; exact run_map env host C t ms hj ⟨.mapItems C, .mapItems C t kvs, l, w⟩ rest fin n kvs more
    · simp only [if_neg hr]; rfl
  | objStart k vs =>
    simp only [openStep, objectFn, replaceTop]
    by_cases hr : room host (rest.map (·.cls)) (.object k) = true
    · simp only [if_pos hr]; rw [after_whole]; exact run_obj env host k ms hj ⟨.object k, .objItems k vs, l, w⟩ rest fin n vs more
    · simp only [if_neg hr]; rfl
  | vecStart t vs => rfl
  | setStart t vs => rfl
  | fixStart C ts vs => rfl
  | unsupported v => rfl
  | _ => cases hop

/-- The handler stack does with the events of a document what `pval` says, whatever is below and whatever
follows. -/
theorem delivers (env : Env) (host : Host) : ∀ j, Delivers env host j := by
  intro j
  generalize hn : sizeOf j = n
  induction n using Nat.strongRecOn generalizing j with
  | ind n ih =>
    subst hn
    cases j with
    | null => exact follows_scalar env host .null .null rfl (by rw [pval]) (by simp) (by simp)
    | bool b => exact follows_scalar env host (.bool b) (.bool b) rfl (by rw [pval]) (by simp) (by simp)
    | num m => exact follows_scalar env host (.num m) (.num m) rfl (by rw [pval]) (by simp) (by simp)
    | str s => exact follows_scalar env host (.str s) (.str s) rfl (by rw [pval]) (by simp) (by simp)
    | arr js =>
      refine follows_arr env host js fun j hj => ih (sizeOf j) ?_ j rfl
      have := List.sizeOf_lt_of_mem hj
      simp only [Json.arr.sizeOf_spec]; omega
    | obj ms =>
      refine follows_obj env host ms fun p hp => ih (sizeOf p.2) ?_ p.2 rfl
      have h1 := List.sizeOf_lt_of_mem hp
      have : sizeOf p = 1 + sizeOf p.1 + sizeOf p.2 := by cases p; rfl
      simp only [Json.obj.sizeOf_spec]; omega

/-- `parse` on a complete document. -/
theorem parseBool_document (env : Env) (host : Host) (t : Ty) (j : Json) (target : Val) (n : Nat) :
    parseBool env host t (.document j) target n =
      if room host [] (.parser t) then
        match openP env t target n with
        | (h, w, n') =>
            match pval env host j [] h n' with
            | .ok v _ => .accepted (w v)
            | .stuck _ v _ => .accepted (w v)
            | .fail => .rejected
            | .threw => .threw
            | .ub => .ub
      else .threw := by
  unfold parseBool
  by_cases hr : room host [] (.parser t) = true
  · simp only [if_pos hr, start, Feed.events]
    have ho := openP_isOpen env t target n
    generalize openP env t target n = o at ho ⊢
    obtain ⟨h, w, n'⟩ := o
    simp only at ho ⊢
    have := delivers env host j ⟨.parser t, h, .root, w⟩ [] none n' [] ho
    rw [List.append_nil] at this
    rw [this]
    simp only [List.map_nil]
    cases pval env host j [] h n' <;> rfl
  · simp only [if_neg hr]

end Verif.Core
