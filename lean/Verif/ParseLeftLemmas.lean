import Verif.ParseLeft

/-!
# The machine leaves what `Leaves` says
-/

namespace Verif.Core
open Verif.Numeric Verif.EnumConv Verif.PerfectHash

/-! ## The variable behind a stack -/

/-- The variable when an object is put into the objects of the handlers below. -/
def putDown : Link → Val → List Frame → Val
  | _, v, [] => v
  | l, v, p :: rest => putDown p.link (p.wrap (plug p.handler l v).value) rest

theorem target_cons (f : Frame) (rest : List Frame) (fin : Option Val) (n : Nat) :
    PState.target ⟨f :: rest, fin, n⟩ = putDown f.link (f.wrap f.handler.value) rest := by
  simp only [PState.target]
  induction rest generalizing f with
  | nil => rfl
  | cons p rest ih =>
    have := ih { p with handler := plug p.handler f.link (f.wrap f.handler.value) }
    simpa only [collapse, List.foldl_cons, putDown] using this

theorem left_append {env : Env} {host : Host} {s s' : PState} {es : List Event} (more : List Event) (h : prun env host s es = .go s') :
    left env host s (es ++ more) = left env host s' more := by
  induction es generalizing s with
  | nil => cases h; rfl
  | cons e es ih =>
    rw [prun_cons] at h
    rw [List.cons_append, left]
    split at h <;> simp_all

theorem opened_eq (env : Env) (G : Nat → Prop) (hG : StreamableClasses env G) : ∀ (t : Ty) (target : Val) (n : Nat), Streamable G t →
    opened env t target n = (openP env t target n).2.1 (openP env t target n).1.value
  | .prim _, _, _, _ => rfl
  | .vec _, _, _, _ => rfl
  | .arr _ _, _, _, _ => rfl
  | .set _, _, _, _ => rfl
  | .map _ _, _, _, _ => rfl
  | .dict t, target, n, _ => by
    simp only [opened, asVar, openP, Handler.value, Val.elements, List.map_map]
    congr 1
    exact (List.map_id _).symm
  | .tuple _, _, _, _ => rfl
  | .variant _, _, _, h => h.elim
  | .cls c, target, n, h => by
    simp only [openP, if_neg (hG c h).1]
    rfl
  | .uptr t, target, n, h => by rw [opened, opened_eq env G hG t _ n h]; rfl
  | .sptr t, target, n, h => by rw [opened, opened_eq env G hG t _ (n + 1) h]; rfl

/-! ## Tokens -/

theorem behind_eq : ∀ (t : Ty) (e : Event) (es : List Event), stored.behind t (e :: es) = isToken t e
  | .prim p, e, es => by cases p <;> cases e <;> rfl
  | .vec _, e, es => by cases e <;> rfl
  | .arr _ _, e, es => by cases e <;> rfl
  | .set _, e, es => by cases e <;> rfl
  | .map _ _, e, es => by cases e <;> rfl
  | .dict _, e, es => by cases e <;> rfl
  | .tuple _, e, es => by cases e <;> rfl
  | .variant _, e, es => by cases e <;> rfl
  | .cls _, e, es => by cases e <;> rfl
  | .uptr t, e, es => by rw [stored.behind, isToken, behind_eq t e es]
  | .sptr t, e, es => by rw [stored.behind, isToken, behind_eq t e es]

theorem behind_nil : ∀ t : Ty, stored.behind t [] = false
  | .prim p => by cases p <;> rfl
  | .vec _ | .arr _ _ | .set _ | .map _ _ | .dict _ | .tuple _ | .variant _ | .cls _ => rfl
  | .uptr t => behind_nil t
  | .sptr t => behind_nil t

theorem stored_eq (t : Ty) (e : Event) (es : List Event) : stored t (e :: es) = ((direct t).isNone && isToken t e) := by
  cases t with
  | prim p =>
    cases p with
    | int t => cases e <;> simp [stored, direct, isToken]
    | _ => cases e <;> rfl
  | uptr t => rw [stored, behind_eq, isToken]; rfl
  | sptr t => rw [stored, behind_eq, isToken]; rfl
  | _ => cases e <;> rfl

theorem oneByOne_eq (t : Ty) : oneByOne t = (direct t).isSome := by
  cases t with
  | prim p =>
    cases p with
    | int t =>
      simp only [oneByOne, direct]
      split <;> simp_all
    | _ => rfl
  | _ => rfl

theorem isToken_end : ∀ t : Ty, isToken t .endArr = false
  | .prim p => by cases p <;> rfl
  | .vec _ | .arr _ _ | .set _ | .map _ _ | .dict _ | .tuple _ | .variant _ | .cls _ => rfl
  | .uptr t => isToken_end t
  | .sptr t => isToken_end t

theorem isToken_first {t : Ty} {e : Event} (h : isToken t e = true) : e ≠ .endArr := by
  rintro rfl
  rw [isToken_end] at h
  cases h

/-! ## Heights -/

theorem height_le (l : Nat) (es : List Event) : l ≤ height l es := by
  cases es with
  | nil => exact Nat.le_refl _
  | cons e es => cases e <;> exact Nat.le_max_left ..

mutual
theorem height_events (l : Nat) (more : List Event) : ∀ j, height l (events j ++ more) = max (l + j.depth) (height l more)
  | .null => by simp [events, height, Json.depth]
  | .bool _ => by simp [events, height, Json.depth]
  | .num _ => by simp [events, height, Json.depth]
  | .str _ => by simp [events, height, Json.depth]
  | .arr js => by
    have := height_items (l + 1) (.endArr :: more) js
    have hl := height_le l more
    simp only [events, List.cons_append, List.append_assoc, List.nil_append, height, Json.depth, this, Nat.add_sub_cancel]
    omega
  | .obj ms => by
    have := height_members (l + 1) (.endObj :: more) ms
    have hl := height_le l more
    simp only [events, List.cons_append, List.append_assoc, List.nil_append, height, Json.depth, this, Nat.add_sub_cancel]
    omega
theorem height_items (l : Nat) (more : List Event) : ∀ js, height l (eventsItems js ++ more) = max (l + Json.depthAll js) (height l more)
  | [] => by have hl := height_le l more; simp [eventsItems, Json.depthAll, hl]
  | j :: js => by
    have h1 := height_events l (eventsItems js ++ more) j
    have h2 := height_items l more js
    simp only [eventsItems, List.append_assoc, Json.depthAll, h1, h2]
    have : Nat.max j.depth (Json.depthAll js) = max j.depth (Json.depthAll js) := rfl
    omega
theorem height_members (l : Nat) (more : List Event) : ∀ ms, height l (eventsMembers ms ++ more) = max (l + Json.depthFields ms) (height l more)
  | [] => by have hl := height_le l more; simp [eventsMembers, Json.depthFields, hl]
  | (k, j) :: ms => by
    have h1 := height_events l (eventsMembers ms ++ more) j
    have h2 := height_members l more ms
    simp only [eventsMembers, List.cons_append, List.append_assoc, height, Json.depthFields, h1, h2]
    have : Nat.max j.depth (Json.depthFields ms) = max j.depth (Json.depthFields ms) := rfl
    omega
end

theorem height_prefix (es more : List Event) : ∀ l, height l es ≤ height l (es ++ more) := by
  induction es with
  | nil => intro l; exact height_le l more
  | cons e es ih =>
    intro l
    cases e <;> simp only [List.cons_append, height]
    all_goals first
      | have := ih (l + 1); omega
      | have := ih (l - 1); omega
      | have := ih l; omega

/-! ## Integers -/

/-- All integers are in the range that RapidJSON reports as integers. -/
def ProperEvents (es : List Event) : Prop := ∀ x, Event.num x ∈ es → (Json.num x).proper = true

mutual
theorem proper_of_events : ∀ j, ProperEvents (events j) → j.proper = true
  | .null, _ => rfl
  | .bool _, _ => rfl
  | .num x, h => h x (by simp [events])
  | .str _, _ => rfl
  | .arr js, h => by
    rw [Json.proper]
    exact proper_of_items js fun x hx => h x (by simp [events, hx])
  | .obj ms, h => by
    rw [Json.proper]
    exact proper_of_members ms fun x hx => h x (by simp [events, hx])
theorem proper_of_items : ∀ js, ProperEvents (eventsItems js) → Json.properAll js = true
  | [], _ => rfl
  | j :: js, h => by
    rw [Json.properAll, proper_of_events j fun x hx => h x (by simp [eventsItems, hx]),
      proper_of_items js fun x hx => h x (by simp [eventsItems, hx])]
    rfl
theorem proper_of_members : ∀ ms, ProperEvents (eventsMembers ms) → Json.properFields ms = true
  | [], _ => rfl
  | (k, j) :: ms, h => by
    rw [Json.properFields, proper_of_events j fun x hx => h x (by simp [eventsMembers, hx]),
      proper_of_members ms fun x hx => h x (by simp [eventsMembers, hx])]
    rfl
end

mutual
theorem events_proper : ∀ j, j.proper = true → ProperEvents (events j)
  | .null, _ => by intro x hx; simp [events] at hx
  | .bool _, _ => by intro x hx; simp [events] at hx
  | .num x, h => by intro y hy; simp [events] at hy; subst hy; exact h
  | .str _, _ => by intro x hx; simp [events] at hx
  | .arr js, h => by
    rw [Json.proper] at h
    intro x hx
    simp only [events, List.mem_cons, List.mem_append, List.not_mem_nil, or_false, reduceCtorEq, false_or] at hx
    exact items_proper js h x hx
  | .obj ms, h => by
    rw [Json.proper] at h
    intro x hx
    simp only [events, List.mem_cons, List.mem_append, List.not_mem_nil, or_false, reduceCtorEq, false_or] at hx
    exact members_proper ms h x hx
theorem items_proper : ∀ js, Json.properAll js = true → ProperEvents (eventsItems js)
  | [], _ => by intro x hx; simp [eventsItems] at hx
  | j :: js, h => by
    simp only [Json.properAll, Bool.and_eq_true] at h
    intro x hx
    simp only [eventsItems, List.mem_append] at hx
    rcases hx with hx | hx
    · exact events_proper j h.1 x hx
    · exact items_proper js h.2 x hx
theorem members_proper : ∀ ms, Json.properFields ms = true → ProperEvents (eventsMembers ms)
  | [], _ => by intro x hx; simp [eventsMembers] at hx
  | (k, j) :: ms, h => by
    simp only [Json.properFields, Bool.and_eq_true] at h
    intro x hx
    simp only [eventsMembers, List.mem_cons, List.mem_append, reduceCtorEq, false_or] at hx
    rcases hx with hx | hx
    · exact events_proper j h.1 x hx
    · exact members_proper ms h.2 x hx
end

theorem ProperEvents.left {es es' : List Event} (h : ProperEvents (es ++ es')) : ProperEvents es := fun x hx => h x (by simp [hx])
theorem ProperEvents.right {es es' : List Event} (h : ProperEvents (es ++ es')) : ProperEvents es' := fun x hx => h x (by simp [hx])
theorem ProperEvents.tail {e : Event} {es : List Event} (h : ProperEvents (e :: es)) : ProperEvents es := fun x hx => h x (by simp [hx])

/-! ## Complete parts -/

section
variable (env : Env) (host : Host) (G : Nat → Prop) (hG : StreamableClasses env G) (hsel : Selects env host) (d : Nat) (hroom : Roomy host d)

/-- The frame of a new handler. -/
def newFrame (c : HClass) (t : Ty) (target : Val) (n : Nat) (link : Link) (outer : Val → Val) : Frame :=
  ⟨c, (openP env t target n).1, link, fun v => outer ((openP env t target n).2.1 v)⟩

include hroom hG hsel in
theorem left_value (j : Json) (t : Ty) (ht : Streamable G t) (target : Val) (n : Nat) (v : Val) (n' : Nat) (hm : meaning env j t target n = .yes v n')
    (c : HClass) (link : Link) (outer : Val → Val) (rest : List Frame) (fin : Option Val) (more : List Event) (hd : rest.length + j.depth ≤ d)
    (hp : j.proper = true) :
    left env host ⟨newFrame env c t target n link outer :: rest, fin, (openP env t target n).2.2⟩ (events j ++ more) =
      left env host (popTo id link (outer v) rest fin n') more := by
  have h := computes env host G hG hsel d hroom j t target n (rest.map (·.cls)) ht (by simpa using hd) hp
  rw [hm] at h
  have hr := delivers env host j (newFrame env c t target n link outer) rest fin (openP env t target n).2.2 [] (openP_isOpen env t target n)
  rw [List.append_nil] at hr
  unfold newFrame at hr ⊢
  simp only at hr
  generalize pval env host j (rest.map (·.cls)) (openP env t target n).1 (openP env t target n).2.2 = r at h hr
  cases r <;> simp only [PAgree] at h
  rename_i u m
  obtain ⟨hu, hmn⟩ := h
  have hr' : prun env host
      ⟨⟨c, (openP env t target n).1, link, fun v => outer ((openP env t target n).2.1 v)⟩ :: rest, fin, (openP env t target n).2.2⟩ (events j) =
      .go (popTo id link (outer v) rest fin n') := by
    rw [hr, ← hmn, ← hu]
    cases rest <;> rfl
  exact left_append more hr'

/-! ## Entering a part -/

theorem enter_vec (t : Ty) (hd : direct t = none) (e : Event) (ht : isToken t e = true) (f : Frame) (vs : List Val) (rest : List Frame)
    (fin : Option Val) (n : Nat) (hr : room host (f.cls :: rest.map (·.cls)) (.parser t) = true) (es : List Event) :
    left env host ⟨{ f with handler := .vecItems t vs } :: rest, fin, n⟩ (e :: es) =
      left env host ⟨newFrame env (.parser t) t (env.ctor t) n .item id :: { f with handler := .vecItems t vs } :: rest, fin,
        (openP env t (env.ctor t) n).2.2⟩ (e :: es) := by
  have ho := openP_isOpen env t (env.ctor t) n
  have hs : pstep env host ⟨{ f with handler := .vecItems t vs } :: rest, fin, n⟩ e =
      pstep env host ⟨newFrame env (.parser t) t (env.ctor t) n .item id :: { f with handler := .vecItems t vs } :: rest, fin,
        (openP env t (env.ctor t) n).2.2⟩ e := by
    rw [pstep_open env host (newFrame env (.parser t) t (env.ctor t) n .item id) _ _ _ _ ho]
    have hne := isToken_first ht
    cases e <;> first | exact absurd rfl hne | simp only [pstep, hd, ht, if_true, emplaceP, List.map_cons, hr, newFrame]
  have hrf : refusedAt env host ⟨{ f with handler := .vecItems t vs } :: rest, fin, n⟩ e =
      refusedAt env host ⟨newFrame env (.parser t) t (env.ctor t) n .item id :: { f with handler := .vecItems t vs } :: rest, fin,
        (openP env t (env.ctor t) n).2.2⟩ e := by
    simp only [refusedAt, hd, ht, if_true, hr, pushRefused, newFrame]
    generalize openP env t (env.ctor t) n = o at ho
    obtain ⟨h, w, n'⟩ := o
    cases h <;> first | rfl | cases ho
  rw [left, left, hs, hrf]

theorem enter_set (t : Ty) (hd : direct t = none) (e : Event) (ht : isToken t e = true) (f : Frame) (st vs : List Val) (rest : List Frame)
    (fin : Option Val) (n : Nat) (hr : room host (f.cls :: rest.map (·.cls)) (.parser t) = true) (es : List Event) :
    left env host ⟨{ f with handler := .setItems t st vs } :: rest, fin, n⟩ (e :: es) =
      left env host ⟨newFrame env (.parser t) t (env.ctor t) n .item id :: { f with handler := .setItems t st vs } :: rest, fin,
        (openP env t (env.ctor t) n).2.2⟩ (e :: es) := by
  have ho := openP_isOpen env t (env.ctor t) n
  have hs : pstep env host ⟨{ f with handler := .setItems t st vs } :: rest, fin, n⟩ e =
      pstep env host ⟨newFrame env (.parser t) t (env.ctor t) n .item id :: { f with handler := .setItems t st vs } :: rest, fin,
        (openP env t (env.ctor t) n).2.2⟩ e := by
    rw [pstep_open env host (newFrame env (.parser t) t (env.ctor t) n .item id) _ _ _ _ ho]
    have hne := isToken_first ht
    cases e <;> first | exact absurd rfl hne | simp only [pstep, hd, ht, if_true, emplaceP, List.map_cons, hr, newFrame]
  have hrf : (refusedAt env host ⟨{ f with handler := .setItems t st vs } :: rest, fin, n⟩ e).target =
      (refusedAt env host ⟨newFrame env (.parser t) t (env.ctor t) n .item id :: { f with handler := .setItems t st vs } :: rest, fin,
        (openP env t (env.ctor t) n).2.2⟩ e).target := by
    simp only [refusedAt, newFrame]
    generalize openP env t (env.ctor t) n = o at ho
    obtain ⟨h, w, n'⟩ := o
    cases h <;> first | (cases ho; done) | (simp only [target_cons]; rfl)
  rw [left, left, hs, hrf]

theorem enter_fix (C : Ty) (ts : List Ty) (i : Nat) (t : Ty) (hi : ts[i]? = some t) (e : Event) (he : e.startsValue = true) (f : Frame) (c : HClass)
    (vs : List Val) (rest : List Frame) (fin : Option Val) (n : Nat) (hr1 : room host (rest.map (·.cls)) (.fixed C (i + 1)) = true)
    (hr2 : room host (.fixed C (i + 1) :: rest.map (·.cls)) (.parser t) = true) (es : List Event) :
    left env host ⟨{ f with cls := c, handler := .fixItems C ts i vs } :: rest, fin, n⟩ (e :: es) =
      left env host ⟨newFrame env (.parser t) t (vs.getD i (env.ctor t)) n (.nth i) id ::
        { f with cls := .fixed C (i + 1), handler := .fixItems C ts (i + 1) vs } :: rest, fin,
        (openP env t (vs.getD i (env.ctor t)) n).2.2⟩ (e :: es) := by
  have ho := openP_isOpen env t (vs.getD i (env.ctor t)) n
  have hs : pstep env host ⟨{ f with cls := c, handler := .fixItems C ts i vs } :: rest, fin, n⟩ e =
      pstep env host ⟨newFrame env (.parser t) t (vs.getD i (env.ctor t)) n (.nth i) id ::
        { f with cls := .fixed C (i + 1), handler := .fixItems C ts (i + 1) vs } :: rest, fin,
        (openP env t (vs.getD i (env.ctor t)) n).2.2⟩ e := by
    rw [pstep_open env host (newFrame env (.parser t) t (vs.getD i (env.ctor t)) n (.nth i) id) _ _ _ _ ho]
    simp only [pstep, hi, he, if_true, emplaceP, List.map_cons, hr1, hr2, newFrame]
  have hrf : refusedAt env host ⟨{ f with cls := c, handler := .fixItems C ts i vs } :: rest, fin, n⟩ e =
      refusedAt env host ⟨newFrame env (.parser t) t (vs.getD i (env.ctor t)) n (.nth i) id ::
        { f with cls := .fixed C (i + 1), handler := .fixItems C ts (i + 1) vs } :: rest, fin,
        (openP env t (vs.getD i (env.ctor t)) n).2.2⟩ e := by
    simp only [refusedAt, hi, he, hr1, hr2, Bool.and_self, if_true, pushRefused, newFrame]
    generalize openP env t (vs.getD i (env.ctor t)) n = o at ho
    obtain ⟨h, w, n'⟩ := o
    cases h <;> first | rfl | cases ho
  rw [left, left, hs, hrf]

theorem enter_map (C t : Ty) (k : Str) (f : Frame) (kvs : List (Str × Val)) (rest : List Frame) (fin : Option Val) (n : Nat)
    (hr : room host (f.cls :: rest.map (·.cls)) (.parser t) = true) (es : List Event) :
    left env host ⟨{ f with handler := .mapItems C t kvs } :: rest, fin, n⟩ (.key k :: es) =
      left env host ⟨newFrame env (.parser t) t ((kvs.lookup k).getD (env.ctor t)) n (.key k) id :: { f with handler := .mapItems C t kvs } :: rest, fin,
        (openP env t ((kvs.lookup k).getD (env.ctor t)) n).2.2⟩ es := by
  rw [left]
  simp only [pstep, emplaceP, List.map_cons, hr, if_true, newFrame]

include hsel in
theorem enter_obj (c : Nat) (hc : env.members c ≠ []) (k : Str) (i : Nat) (m : Member) (hi : memberAt (env.members c) k = some i)
    (hm : (env.members c)[i]? = some m) (f : Frame) (vs : List Val) (rest : List Frame) (fin : Option Val) (n : Nat)
    (hr : ∀ h, room host (f.cls :: rest.map (·.cls)) h = true) (es : List Event) :
    ∃ h, left env host ⟨{ f with handler := .objItems c vs } :: rest, fin, n⟩ (.key k :: es) =
      left env host ⟨newFrame env h m.ty (if m.kind = .optional then env.ctor m.ty else vs.getD i (env.ctor m.ty)) n (.member i)
          (fun v => if m.kind = .optional then .present v else v) :: { f with handler := .objItems c vs } :: rest, fin,
        (openP env m.ty (if m.kind = .optional then env.ctor m.ty else vs.getD i (env.ctor m.ty)) n).2.2⟩ es := by
  rw [left]
  simp only [pstep, hsel c hc k, hi, hm]
  by_cases ho : m.kind = .optional
  · exact ⟨.optional m.ty, by simp only [if_pos ho, emplaceP, List.map_cons, hr, if_true, newFrame]⟩
  · exact ⟨.parser m.ty, by simp only [if_neg ho, emplaceP, List.map_cons, hr, if_true, newFrame, id]⟩

/-! ## The parts before the last one -/

include hroom hG hsel in
theorem left_vec (t : Ty) (he : t.element = true) (ht : Streamable G t) (f : Frame) (rest : List Frame) (fin : Option Val) (more : List Event)
    (js : List Json) : ∀ (vs us : List Val) (n n' : Nat), manyM env t (meaningItems env js) n = .yes us n' → rest.length + 1 + Json.depthAll js ≤ d →
    Json.properAll js = true →
    left env host ⟨{ f with handler := .vecItems t vs } :: rest, fin, n⟩ (eventsItems js ++ more) =
      left env host ⟨{ f with handler := .vecItems t (vs ++ us) } :: rest, fin, n'⟩ more := by
  induction js with
  | nil =>
    intro vs us n n' hm _ _
    simp only [meaningItems, manyM, Means.yes.injEq] at hm
    obtain ⟨rfl, rfl⟩ := hm
    simp [eventsItems]
  | cons j js ih =>
    intro vs us n n' hm hd hp
    simp only [Json.depthAll] at hd
    have hm1 : j.depth ≤ Nat.max j.depth (Json.depthAll js) := Nat.le_max_left ..
    have hm2 : Json.depthAll js ≤ Nat.max j.depth (Json.depthAll js) := Nat.le_max_right ..
    simp only [Json.properAll, Bool.and_eq_true] at hp
    simp only [meaningItems, manyM] at hm
    cases h1 : meaning env j t (env.ctor t) n with
    | ub => rw [h1] at hm; cases hm
    | no => rw [h1] at hm; cases hm
    | yes v n1 =>
      rw [h1] at hm
      simp only [Means.bind] at hm
      cases h2 : manyM env t (meaningItems env js) n1 with
      | ub => rw [h2] at hm; cases hm
      | no => rw [h2] at hm; cases hm
      | yes us' n2 =>
        rw [h2] at hm
        simp only [Means.map, Means.yes.injEq] at hm
        obtain ⟨rfl, rfl⟩ := hm
        have key : left env host ⟨{ f with handler := .vecItems t vs } :: rest, fin, n⟩ (events j ++ (eventsItems js ++ more)) =
            left env host ⟨{ f with handler := .vecItems t (vs ++ [v]) } :: rest, fin, n1⟩ (eventsItems js ++ more) := by
          cases hdt : direct t with
          | some p =>
            have htp : t = .prim p := direct_eq t p hdt
            subst htp
            rw [meaning_prim] at h1
            cases hl : leafMeaning env p j with
            | ub => rw [hl] at h1; cases h1
            | fail => rw [hl] at h1; cases h1
            | ok pv =>
              rw [hl] at h1
              simp only [Means.yes.injEq] at h1
              obtain ⟨rfl, rfl⟩ := h1
              have hlp := leafParse_meaning env p j hp.1
              rw [hl] at hlp
              rw [leafParse_scalar hlp, List.cons_append, List.nil_append, left]
              have hne : first j ≠ .endArr := by cases j <;> simp [first]
              have : pstep env host ⟨{ f with handler := .vecItems (.prim p) vs } :: rest, fin, n⟩ (first j) =
                  .go ⟨{ f with handler := .vecItems (.prim p) (vs ++ [.prim pv]) } :: rest, fin, n⟩ := by
                generalize first j = e at hlp hne
                cases e <;> first | exact absurd rfl hne | simp only [pstep, hdt, hlp]
              rw [this]
          | none =>
            have hnum : t.numeric = false := by simpa [Ty.element, hdt] using he
            have htok : isToken t (first j) = true := by
              cases hi : isToken t (first j) with
              | true => rfl
              | false =>
                rw [meaning_node, nodeM_token env j _ _ t _ n hi hnum] at h1
                cases h1
            obtain ⟨tl, htl⟩ := events_first j
            have h3 := enter_vec env host t hdt (first j) htok f vs rest fin n (hroom _ _ (by simp; omega)) (tl ++ (eventsItems js ++ more))
            rw [← List.cons_append, ← htl] at h3
            rw [h3, left_value env host G hG hsel d hroom j t ht _ n v n1 h1 (.parser t) .item id _ fin _ (by simp only [List.length_cons]; omega) hp.1]
            rfl
        rw [eventsItems, List.append_assoc, key, ih (vs ++ [v]) us' n1 n2 h2 (by omega) hp.2]
        simp

theorem manyM_cons {env : Env} {t : Ty} {g : MFn} {gs : List MFn} {n n' : Nat} {us : List Val} (h : manyM env t (g :: gs) n = .yes us n') :
    ∃ v n1 us', g t (env.ctor t) n = .yes v n1 ∧ manyM env t gs n1 = .yes us' n' ∧ us = v :: us' := by
  rw [manyM] at h
  cases h1 : g t (env.ctor t) n with
  | ub => rw [h1] at h; cases h
  | no => rw [h1] at h; cases h
  | yes v n1 =>
    rw [h1] at h
    simp only [Means.bind] at h
    cases h2 : manyM env t gs n1 with
    | ub => rw [h2] at h; cases h
    | no => rw [h2] at h; cases h
    | yes us' n2 =>
      rw [h2] at h
      simp only [Means.map, Means.yes.injEq] at h
      obtain ⟨rfl, rfl⟩ := h
      exact ⟨v, n1, us', rfl, h2, rfl⟩

include hroom hG hsel in
theorem left_set (t : Ty) (he : t.element = true) (ht : Streamable G t) (f : Frame) (rest : List Frame) (fin : Option Val) (more : List Event)
    (js : List Json) : ∀ (st vs us : List Val) (n n' : Nat), manyM env t (meaningItems env js) n = .yes us n' →
    rest.length + 1 + Json.depthAll js ≤ d → Json.properAll js = true →
    ∃ st', left env host ⟨{ f with handler := .setItems t st vs } :: rest, fin, n⟩ (eventsItems js ++ more) =
      left env host ⟨{ f with handler := .setItems t st' (if (direct t).isSome then us.foldl (fun s v => setInsert env.less v s) vs else vs) } ::
        rest, fin, n'⟩ more := by
  induction js with
  | nil =>
    intro st vs us n n' hm _ _
    simp only [meaningItems, manyM, Means.yes.injEq] at hm
    obtain ⟨rfl, rfl⟩ := hm
    exact ⟨st, by simp [eventsItems]⟩
  | cons j js ih =>
    intro st vs us n n' hm hd hp
    simp only [Json.depthAll] at hd
    have hm1 : j.depth ≤ Nat.max j.depth (Json.depthAll js) := Nat.le_max_left ..
    have hm2 : Json.depthAll js ≤ Nat.max j.depth (Json.depthAll js) := Nat.le_max_right ..
    simp only [Json.properAll, Bool.and_eq_true] at hp
    rw [meaningItems] at hm
    obtain ⟨v, n1, us', h1, h2, rfl⟩ := manyM_cons hm
    rw [eventsItems, List.append_assoc]
    cases hdt : direct t with
    | some p =>
      have htp : t = .prim p := direct_eq t p hdt
      subst htp
      rw [meaning_prim] at h1
      cases hl : leafMeaning env p j with
      | ub => rw [hl] at h1; cases h1
      | fail => rw [hl] at h1; cases h1
      | ok pv =>
        rw [hl] at h1
        simp only [Means.yes.injEq] at h1
        obtain ⟨rfl, rfl⟩ := h1
        have hlp := leafParse_meaning env p j hp.1
        rw [hl] at hlp
        rw [leafParse_scalar hlp, List.cons_append, List.nil_append, left]
        have hne : first j ≠ .endArr := by cases j <;> simp [first]
        have : pstep env host ⟨{ f with handler := .setItems (.prim p) st vs } :: rest, fin, n⟩ (first j) =
            .go ⟨{ f with handler := .setItems (.prim p) st (setInsert env.less (.prim pv) vs) } :: rest, fin, n⟩ := by
          generalize first j = e at hlp hne
          cases e <;> first | exact absurd rfl hne | simp only [pstep, hdt, hlp]
        rw [this]
        obtain ⟨st', h⟩ := ih st (setInsert env.less (.prim pv) vs) us' n n' h2 (by omega) hp.2
        rw [hdt] at h
        exact ⟨st', h⟩
    | none =>
      have hnum : t.numeric = false := by simpa [Ty.element, hdt] using he
      have htok : isToken t (first j) = true := by
        cases hi : isToken t (first j) with
        | true => rfl
        | false =>
          rw [meaning_node, nodeM_token env j _ _ t _ n hi hnum] at h1
          cases h1
      obtain ⟨tl, htl⟩ := events_first j
      have h3 := enter_set env host t hdt (first j) htok f st vs rest fin n (hroom _ _ (by simp; omega)) (tl ++ (eventsItems js ++ more))
      rw [← List.cons_append, ← htl] at h3
      rw [h3, left_value env host G hG hsel d hroom j t ht _ n v n1 h1 (.parser t) .item id _ fin _ (by simp only [List.length_cons]; omega) hp.1]
      obtain ⟨st', h⟩ := ih (st ++ [v]) vs us' n1 n' h2 (by omega) hp.2
      rw [hdt] at h
      exact ⟨st', h⟩

theorem fit_size : ∀ (ts : List Ty) (vs : List Val), (fit env ts vs).length = ts.length := by
  intro ts
  induction ts with
  | nil => intro vs; rfl
  | cons t ts ih => intro vs; rw [fit, List.length_cons, ih, List.length_cons]

theorem fit_drop (k : Nat) : ∀ (ts : List Ty) (vs : List Val), (fit env ts vs).drop k = fit env (ts.drop k) (vs.drop k) := by
  induction k with
  | zero => intro ts vs; simp
  | succ k ih =>
    intro ts vs
    cases ts with
    | nil => simp [fit]
    | cons t ts =>
      rw [fit, List.drop_succ_cons, ih, List.drop_succ_cons]
      cases vs <;> simp

theorem eachM_cons {env : Env} {g : MFn} {gs : List MFn} {ts : List Ty} {targets us : List Val} {n n' : Nat}
    (h : eachM env (g :: gs) ts targets n = .yes us n') :
    ∃ t ts' v n1 us', ts = t :: ts' ∧ g t (targets.headD (env.ctor t)) n = .yes v n1 ∧ eachM env gs ts' targets.tail n1 = .yes us' n' ∧ us = v :: us' := by
  cases ts with
  | nil => cases h
  | cons t ts' =>
    rw [eachM] at h
    cases h1 : g t (targets.headD (env.ctor t)) n with
    | ub => rw [h1] at h; cases h
    | no => rw [h1] at h; cases h
    | yes v n1 =>
      rw [h1] at h
      simp only [Means.bind] at h
      cases h2 : eachM env gs ts' targets.tail n1 with
      | ub => rw [h2] at h; cases h
      | no => rw [h2] at h; cases h
      | yes us' n2 =>
        rw [h2] at h
        simp only [Means.map, Means.yes.injEq] at h
        obtain ⟨rfl, rfl⟩ := h
        exact ⟨t, ts', v, n1, us', rfl, h1, h2, rfl⟩

include hroom hG hsel in
theorem left_fix (C : Ty) (f : Frame) (rest : List Frame) (fin : Option Val) (more : List Event) (js : List Json) :
    ∀ (c : HClass) (pre ts : List Ty) (done targets us : List Val) (n n' : Nat), StreamableAll G ts → done.length = pre.length →
    eachM env (meaningItems env js) (ts.take js.length) targets n = .yes us n' → rest.length + 1 + Json.depthAll js ≤ d →
    Json.properAll js = true →
    us.length = js.length ∧
    ∃ c', left env host ⟨{ f with cls := c, handler := .fixItems C (pre ++ ts) pre.length (done ++ fit env ts targets) } :: rest, fin, n⟩
        (eventsItems js ++ more) =
      left env host
        ⟨{ f with cls := c', handler := .fixItems C (pre ++ ts) (pre.length + js.length) (done ++ us ++ (fit env ts targets).drop js.length) } :: rest,
          fin, n'⟩ more := by
  induction js with
  | nil =>
    intro c pre ts done targets us n n' _ hl hm _ _
    simp only [meaningItems, List.length_nil, List.take_zero, eachM, Means.yes.injEq] at hm
    obtain ⟨rfl, rfl⟩ := hm
    exact ⟨rfl, c, by simp [eventsItems]⟩
  | cons j js ih =>
    intro c pre ts done targets us n n' hts hl hm hd hp
    simp only [Json.depthAll] at hd
    have hm1 : j.depth ≤ Nat.max j.depth (Json.depthAll js) := Nat.le_max_left ..
    have hm2 : Json.depthAll js ≤ Nat.max j.depth (Json.depthAll js) := Nat.le_max_right ..
    simp only [Json.properAll, Bool.and_eq_true] at hp
    rw [meaningItems] at hm
    obtain ⟨t, ts', v, n1, us', hte, h1, h2, rfl⟩ := eachM_cons hm
    cases ts with
    | nil => simp at hte
    | cons t0 ts =>
    simp only [List.length_cons, List.take_succ_cons, List.cons.injEq] at hte
    obtain ⟨rfl, rfl⟩ := hte
    rw [eventsItems, List.append_assoc]
    have hi : (pre ++ t0 :: ts)[pre.length]? = some t0 := by simp
    have hg : (done ++ fit env (t0 :: ts) targets).getD pre.length (env.ctor t0) = targets.headD (env.ctor t0) := by
      simp [fit, ← hl]
    have hs : ∀ v, (done ++ fit env (t0 :: ts) targets).set pre.length v = (done ++ [v]) ++ fit env ts targets.tail := by
      intro v
      simp [fit, ← hl]
    obtain ⟨tl, htl⟩ := events_first j
    have h3 := enter_fix env host C (pre ++ t0 :: ts) pre.length t0 hi (first j) (by cases j <;> rfl) f c (done ++ fit env (t0 :: ts) targets) rest fin n
      (hroom _ _ (by simp; omega)) (hroom _ _ (by simp; omega)) (tl ++ (eventsItems js ++ more))
    rw [← List.cons_append, ← htl, hg] at h3
    rw [h3, left_value env host G hG hsel d hroom j t0 hts.1 _ n v n1 h1 (.parser t0) (.nth pre.length) id _ fin _
      (by simp only [List.length_cons]; omega) hp.1]
    have ih' := ih (.fixed C (pre.length + 1)) (pre ++ [t0]) ts (done ++ [v]) targets.tail us' n1 n' hts.2 (by simp [hl]) h2 (by omega) hp.2
    obtain ⟨hlen, c', ih'⟩ := ih'
    refine ⟨by simp [hlen], c', ?_⟩
    simp only [popTo, id, plug, hs]
    simp only [List.append_assoc, List.singleton_append, List.length_append, List.length_singleton] at ih'
    simp only [List.append_assoc, List.length_cons, fit, List.drop_succ_cons, List.cons_append,
      List.nil_append]
    have hn : pre.length + 1 + js.length = pre.length + (js.length + 1) := by omega
    rw [ih', hn]
    rfl

theorem entriesM_cons {env : Env} {t : Ty} {k : Str} {g : MFn} {gs : List (Str × MFn)} {kvs kvs' : List (Str × Val)} {n n' : Nat}
    (h : entriesM env t ((k, g) :: gs) kvs n = .yes kvs' n') :
    ∃ v n1, g t ((kvs.lookup k).getD (env.ctor t)) n = .yes v n1 ∧ entriesM env t gs (mapAssign k v kvs) n1 = .yes kvs' n' := by
  rw [entriesM] at h
  cases h1 : g t ((kvs.lookup k).getD (env.ctor t)) n with
  | ub => rw [h1] at h; cases h
  | no => rw [h1] at h; cases h
  | yes v n1 => rw [h1] at h; exact ⟨v, n1, rfl, h⟩

include hroom hG hsel in
theorem left_map (C t : Ty) (ht : Streamable G t) (f : Frame) (rest : List Frame) (fin : Option Val) (more : List Event) (ms : List (Str × Json)) :
    ∀ (kvs kvs' : List (Str × Val)) (n n' : Nat), entriesM env t (meaningFields env ms) kvs n = .yes kvs' n' →
    rest.length + 1 + Json.depthFields ms ≤ d → Json.properFields ms = true →
    left env host ⟨{ f with handler := .mapItems C t kvs } :: rest, fin, n⟩ (eventsMembers ms ++ more) =
      left env host ⟨{ f with handler := .mapItems C t kvs' } :: rest, fin, n'⟩ more := by
  induction ms with
  | nil =>
    intro kvs kvs' n n' hm _ _
    simp only [meaningFields, entriesM, Means.yes.injEq] at hm
    obtain ⟨rfl, rfl⟩ := hm
    simp [eventsMembers]
  | cons p ms ih =>
    intro kvs kvs' n n' hm hd hp
    obtain ⟨k, j⟩ := p
    simp only [Json.depthFields] at hd
    have hm1 : j.depth ≤ Nat.max j.depth (Json.depthFields ms) := Nat.le_max_left ..
    have hm2 : Json.depthFields ms ≤ Nat.max j.depth (Json.depthFields ms) := Nat.le_max_right ..
    simp only [Json.properFields, Bool.and_eq_true] at hp
    rw [meaningFields] at hm
    obtain ⟨v, n1, h1, h2⟩ := entriesM_cons hm
    rw [eventsMembers, List.cons_append, List.append_assoc, enter_map env host C t k f kvs rest fin n (hroom _ _ (by simp; omega)),
      left_value env host G hG hsel d hroom j t ht _ n v n1 h1 (.parser t) (.key k) id _ fin _ (by simp only [List.length_cons]; omega) hp.1]
    exact ih _ _ _ _ h2 (by omega) hp.2

theorem membersM_cons {env : Env} {ms : List Member} {k : Str} {g : MFn} {gs : List (Str × MFn)} {vs vs' : List Val} {n n' : Nat}
    (h : membersM env ms ((k, g) :: gs) vs n = .yes vs' n') :
    ∃ i m v n1, memberAt ms k = some i ∧ ms[i]? = some m ∧ g m.ty (if m.kind = .optional then env.ctor m.ty else vs.getD i (env.ctor m.ty)) n = .yes v n1 ∧
      membersM env ms gs (vs.set i (if m.kind = .optional then .present v else v)) n1 = .yes vs' n' := by
  rw [membersM] at h
  cases hi : memberAt ms k with
  | none => rw [hi] at h; cases h
  | some i =>
    rw [hi] at h
    simp only at h
    cases hm : ms[i]? with
    | none => rw [hm] at h; cases h
    | some m =>
      rw [hm] at h
      simp only at h
      refine ⟨i, m, ?_⟩
      by_cases ho : m.kind = .optional
      · simp only [if_pos ho] at h ⊢
        cases h1 : g m.ty (env.ctor m.ty) n with
        | ub => rw [h1] at h; cases h
        | no => rw [h1] at h; cases h
        | yes v n1 => rw [h1] at h; exact ⟨v, n1, trivial, hm, rfl, h⟩
      · simp only [if_neg ho] at h ⊢
        cases h1 : g m.ty (vs.getD i (env.ctor m.ty)) n with
        | ub => rw [h1] at h; cases h
        | no => rw [h1] at h; cases h
        | yes v n1 => rw [h1] at h; exact ⟨v, n1, trivial, hm, rfl, h⟩

include hroom hG hsel in
theorem left_obj (c : Nat) (hc : G c) (f : Frame) (rest : List Frame) (fin : Option Val) (more : List Event) (ms : List (Str × Json)) :
    ∀ (vs vs' : List Val) (n n' : Nat), membersM env (env.members c) (meaningFields env ms) vs n = .yes vs' n' →
    rest.length + 1 + Json.depthFields ms ≤ d → Json.properFields ms = true →
    left env host ⟨{ f with handler := .objItems c vs } :: rest, fin, n⟩ (eventsMembers ms ++ more) =
      left env host ⟨{ f with handler := .objItems c vs' } :: rest, fin, n'⟩ more := by
  induction ms with
  | nil =>
    intro vs vs' n n' hm _ _
    simp only [meaningFields, membersM, Means.yes.injEq] at hm
    obtain ⟨rfl, rfl⟩ := hm
    simp [eventsMembers]
  | cons p ms ih =>
    intro vs vs' n n' hm hd hp
    obtain ⟨k, j⟩ := p
    simp only [Json.depthFields] at hd
    have hm1 : j.depth ≤ Nat.max j.depth (Json.depthFields ms) := Nat.le_max_left ..
    have hm2 : Json.depthFields ms ≤ Nat.max j.depth (Json.depthFields ms) := Nat.le_max_right ..
    simp only [Json.properFields, Bool.and_eq_true] at hp
    rw [meaningFields] at hm
    obtain ⟨i, m, v, n1, hi, hmi, h1, h2⟩ := membersM_cons hm
    have hst : Streamable G m.ty := (hG c hc).2 _ (List.mem_of_getElem? hmi)
    obtain ⟨h, he⟩ := enter_obj env host hsel c (hG c hc).1 k i m hi hmi f vs rest fin n (fun h => hroom _ _ (by simp; omega))
      (events j ++ (eventsMembers ms ++ more))
    rw [eventsMembers, List.cons_append, List.append_assoc, he,
      left_value env host G hG hsel d hroom j m.ty hst _ n v n1 h1 h (.member i) _ _ fin _ (by simp only [List.length_cons]; omega) hp.1]
    exact ih _ _ _ _ h2 (by omega) hp.2

/-! ## The part that is refused, or not complete -/

theorem leaf_refuses {p : Prim} {j : Json} {more : List Event} (h : leafMeaning env p j = .fail) (hp : ProperEvents (first j :: more)) :
    leafParse env p (first j) = .fail := by
  cases j with
  | arr js => cases p <;> rfl
  | obj ms => cases p <;> rfl
  | num x => rw [leafParse_meaning env p _ (hp x (by simp [first])), h]
  | _ => rw [leafParse_meaning env p _ rfl, h]

theorem first_starts (j : Json) : (first j).startsValue = true := by cases j <;> rfl

theorem leaves_starts {es : List Event} {t : Ty} {target : Val} {n : Nat} {w : Val} (h : Leaves env es t target n w) :
    ∀ e es', es = e :: es' → e.startsValue = true := by
  induction h with
  | ended => intro e es' h; cases h
  | leaf p j more => intro e es' h; cases h; exact first_starts j
  | array t j more => intro e es' h; cases h; exact first_starts j
  | object t j more => intro e es' h; cases h; exact first_starts j
  | uptr _ _ _ _ _ _ ih => exact ih
  | sptr _ _ _ _ _ _ ih => exact ih
  | _ => intro e es' h; cases h; rfl

theorem leaves_prim {es : List Event} {p : Prim} {target : Val} {n : Nat} {w : Val} (h : Leaves env es (.prim p) target n w) (hne : es ≠ []) :
    ∃ j more, es = first j :: more ∧ leafMeaning env p j = .fail := by
  cases h with
  | ended => exact absurd rfl hne
  | leaf _ j more _ _ hl => exact ⟨j, more, rfl, hl⟩
  | array _ _ _ _ _ h => cases h
  | object _ _ _ _ _ h => cases h
  | component _ _ _ _ _ _ _ _ _ _ _ h => cases h
  | number _ _ _ _ _ _ _ _ h => cases h

theorem last_vec (t : Ty) (es : List Event) (n : Nat) (w : Val) (hL : Leaves env es t (env.ctor t) n w)
    (hpe : ProperEvents es)
    (ih : ∀ (c : HClass) (link : Link) (outer : Val → Val) (rest : List Frame) (fin : Option Val), height rest.length es ≤ d →
      left env host ⟨newFrame env c t (env.ctor t) n link outer :: rest, fin, (openP env t (env.ctor t) n).2.2⟩ es = putDown link (outer w) rest)
    (hroom : Roomy host d) (f : Frame) (vs : List Val) (rest : List Frame) (fin : Option Val) (hh : height (rest.length + 1) es ≤ d) :
    left env host ⟨{ f with handler := .vecItems t vs } :: rest, fin, n⟩ es =
      putDown f.link (f.wrap (.seq (vs ++ if stored t es then [w] else []))) rest := by
  cases es with
  | nil =>
    have : stored t [] = false := by
      cases t <;> first | rfl | exact behind_nil _ | (rename_i p; cases p <;> rfl)
    rw [left, target_cons, this]
    simp [Handler.value]
  | cons e es =>
    have hst := leaves_starts env hL e es rfl
    have hne : e ≠ .endArr := by rintro rfl; cases hst
    rw [stored_eq]
    cases hdt : direct t with
    | some p =>
      have htp : t = .prim p := direct_eq t p hdt
      subst htp
      obtain ⟨j, more, he, hl⟩ := leaves_prim env hL (by simp)
      cases he
      have hlp := leaf_refuses env hl hpe
      revert hst hne hlp
      generalize first j = e
      intro hst hne hlp
      have : pstep env host ⟨{ f with handler := .vecItems (.prim p) vs } :: rest, fin, n⟩ e = .fail := by
        cases e <;> first | exact absurd rfl hne | simp only [pstep, hdt, hlp]
      rw [left, this]
      simp only [refusedAt, hdt, target_cons, Handler.value, Option.isNone_some, Bool.false_and, Bool.false_eq_true, if_false, List.append_nil]
    | none =>
      cases htok : isToken t e with
      | true =>
        have hl := height_le (rest.length + 1) (e :: es)
        rw [enter_vec env host t hdt e htok f vs rest fin n (hroom _ _ (by simp; omega)), ih _ _ _ _ _ (by simpa using hh)]
        simp only [putDown, plug, Handler.value, id, Option.isNone_none, Bool.true_and, if_true]
      | false =>
        have : pstep env host ⟨{ f with handler := .vecItems t vs } :: rest, fin, n⟩ e = .fail := by
          cases e <;> first | exact absurd rfl hne | simp only [pstep, hdt, htok, Bool.false_eq_true, if_false]
        rw [left, this]
        simp only [refusedAt, hdt, htok, target_cons, Handler.value, Bool.and_false, Bool.false_eq_true, if_false, List.append_nil]

theorem last_set (t : Ty) (es : List Event) (n : Nat) (w : Val) (hL : Leaves env es t (env.ctor t) n w)
    (hpe : ProperEvents es)
    (ih : ∀ (c : HClass) (link : Link) (outer : Val → Val) (rest : List Frame) (fin : Option Val), height rest.length es ≤ d →
      left env host ⟨newFrame env c t (env.ctor t) n link outer :: rest, fin, (openP env t (env.ctor t) n).2.2⟩ es = putDown link (outer w) rest)
    (hroom : Roomy host d) (f : Frame) (st vs : List Val) (rest : List Frame) (fin : Option Val) (hh : height (rest.length + 1) es ≤ d) :
    left env host ⟨{ f with handler := .setItems t st vs } :: rest, fin, n⟩ es = putDown f.link (f.wrap (.set vs)) rest := by
  cases es with
  | nil => rw [left, target_cons]; rfl
  | cons e es =>
    have hst := leaves_starts env hL e es rfl
    have hne : e ≠ .endArr := by rintro rfl; cases hst
    cases hdt : direct t with
    | some p =>
      have htp : t = .prim p := direct_eq t p hdt
      subst htp
      obtain ⟨j, more, he, hl⟩ := leaves_prim env hL (by simp)
      cases he
      have hlp := leaf_refuses env hl hpe
      revert hst hne hlp
      generalize first j = e
      intro hst hne hlp
      have : pstep env host ⟨{ f with handler := .setItems (.prim p) st vs } :: rest, fin, n⟩ e = .fail := by
        cases e <;> first | exact absurd rfl hne | simp only [pstep, hdt, hlp]
      rw [left, this]
      simp only [refusedAt, target_cons, Handler.value]
    | none =>
      cases htok : isToken t e with
      | true =>
        have hl := height_le (rest.length + 1) (e :: es)
        rw [enter_set env host t hdt e htok f st vs rest fin n (hroom _ _ (by simp; omega)), ih _ _ _ _ _ (by simpa using hh)]
        simp only [putDown, plug, Handler.value]
      | false =>
        have : pstep env host ⟨{ f with handler := .setItems t st vs } :: rest, fin, n⟩ e = .fail := by
          cases e <;> first | exact absurd rfl hne | simp only [pstep, hdt, htok, Bool.false_eq_true, if_false]
        rw [left, this]
        simp only [refusedAt, target_cons, Handler.value]

theorem streamable_component {C : Ty} {ts : List Ty} (h : componentTys C = some ts) (hC : Streamable G C) : StreamableAll G ts := by
  cases C <;> simp only [componentTys, Option.some.injEq, reduceCtorEq] at h
  · subst h; exact streamableAll_replicate G _ _ hC
  · subst h; exact hC

theorem streamableAll_get {ts : List Ty} (h : StreamableAll G ts) : ∀ {i : Nat} {t : Ty}, ts[i]? = some t → Streamable G t := by
  induction ts with
  | nil => intro i t hi; simp at hi
  | cons s ts ih =>
    intro i t hi
    cases i with
    | zero => simp only [List.getElem?_cons_zero, Option.some.injEq] at hi; subst hi; exact h.1
    | succ i => exact ih h.2 (by simpa using hi)

theorem newFrame_component {C : Ty} {ts : List Ty} (h : componentTys C = some ts) (c : HClass) (target : Val) (n : Nat) (link : Link)
    (outer : Val → Val) : newFrame env c C target n link outer = ⟨c, .fixStart C ts (fit env ts target.components), link, outer⟩ ∧
      (openP env C target n).2.2 = n := by
  cases C <;> simp only [componentTys, Option.some.injEq, reduceCtorEq] at h
  · subst h; exact ⟨rfl, rfl⟩
  · subst h; exact ⟨rfl, rfl⟩

include hroom hG hsel in
/-- The machine leaves what `Leaves` says. -/
theorem leaves_left {es : List Event} {t : Ty} {target : Val} {n : Nat} {w : Val} (h : Leaves env es t target n w) :
    ∀ (c : HClass) (link : Link) (outer : Val → Val) (rest : List Frame) (fin : Option Val), Streamable G t → height rest.length es ≤ d →
      ProperEvents es →
      left env host ⟨newFrame env c t target n link outer :: rest, fin, (openP env t target n).2.2⟩ es = putDown link (outer w) rest := by
  induction h with
  | ended t target n =>
    intro c link outer rest fin ht _ _
    rw [left, target_cons, opened_eq env G hG t target n ht]
    rfl
  | leaf p j more target n hl =>
    intro c link outer rest fin ht _ hp
    have hlp := leaf_refuses env hl hp
    have : pstep env host ⟨newFrame env c (.prim p) target n link outer :: rest, fin, (openP env (.prim p) target n).2.2⟩ (first j) = .fail := by
      simp only [newFrame, openP, pstep, openStep, hlp]
    rw [left, this]
    simp only [refusedAt, newFrame, openP, target_cons]
    cases p <;> cases j <;> rfl
  | array t j more target n ht hj =>
    intro c link outer rest fin hs _ _
    have hne : first j ≠ .startArr := by cases j <;> simp_all [first]
    rw [left]
    generalize first j = e at hne
    cases t <;> simp only [fromArray, Bool.false_eq_true] at ht
    all_goals
      simp only [newFrame, openP, pstep, openStep]
      cases e <;> first | exact absurd rfl hne | skip
    all_goals
      simp only [refusedAt, target_cons, refusedTop, Handler.value, asVar, id]
    all_goals
      simp only [Val.elements, List.map_map]
      rw [show (dictEntry ∘ pairOf : Str × Val → Str × Val) = id from rfl, List.map_id]
  | object t j more target n ht hj =>
    intro c link outer rest fin hs _ _
    have hne : first j ≠ .startObj := by cases j <;> simp_all [first]
    rw [left]
    generalize first j = e at hne
    cases t <;> simp only [fromObject, Bool.false_eq_true] at ht
    · simp only [newFrame, openP, pstep, openStep]
      cases e <;> first | exact absurd rfl hne | simp only [refusedAt, target_cons, refusedTop, Handler.value, asVar, id]
    · rename_i c
      simp only [newFrame, openP, if_neg (hG c hs).1, pstep, openStep]
      cases e <;> first | exact absurd rfl hne | simp only [refusedAt, target_cons, refusedTop, Handler.value, asVar, id]
  | vec t pre es target n vs n' w hm hL ih =>
    intro c link outer rest fin ht hh hp
    simp only [height, height_items] at hh
    have hpi := proper_of_items pre hp.tail.left
    have hr : room host (rest.map (·.cls)) (.vecItems t) = true := hroom _ _ (by simp; omega)
    rw [left]
    simp only [newFrame, openP, pstep, openStep, replaceTop, hr, if_true]
    refine (left_vec env host G hG hsel d hroom t ht.1 ht.2 ⟨.vecItems t, .vecItems t target.elements, link, outer⟩ rest fin es pre _ vs n n' hm
      (by omega) hpi).trans ?_
    exact last_vec env host d t es n' w hL hp.tail.right (fun c link outer rest fin hh => ih c link outer rest fin ht.2 hh hp.tail.right) hroom
      ⟨.vecItems t, .vecItems t target.elements, link, outer⟩ _ rest fin (by omega)
  | set t pre es target n vs n' w hm hL ih =>
    intro c link outer rest fin ht hh hp
    simp only [height, height_items] at hh
    have hpi := proper_of_items pre hp.tail.left
    have hr : room host (rest.map (·.cls)) (.setItems t) = true := hroom _ _ (by simp; omega)
    rw [left]
    simp only [newFrame, openP, pstep, openStep, replaceTop, hr, if_true]
    obtain ⟨st, hs⟩ := left_set env host G hG hsel d hroom t ht.1 ht.2 ⟨.setItems t, .setItems t [] target.elements, link, outer⟩ rest fin es pre []
      target.elements vs n n' hm (by omega) hpi
    refine hs.trans ?_
    rw [oneByOne_eq]
    exact last_set env host d t es n' w hL hp.tail.right (fun c link outer rest fin hh => ih c link outer rest fin ht.2 hh hp.tail.right) hroom
      ⟨.setItems t, .setItems t [] target.elements, link, outer⟩ _ _ rest fin (by omega)
  | dict t pre es target n vs n' w hm hL ih =>
    intro c link outer rest fin ht hh hp
    simp only [height, height_items] at hh
    have hpi := proper_of_items pre hp.tail.left
    have hr : room host (rest.map (·.cls)) (.vecItems (.tuple [.prim .str, t])) = true := hroom _ _ (by simp; omega)
    have ht' : Streamable G (.tuple [.prim .str, t]) := ⟨rfl, ht, trivial⟩
    rw [left]
    simp only [newFrame, openP, pstep, openStep, replaceTop, hr, if_true]
    refine (left_vec env host G hG hsel d hroom (.tuple [.prim .str, t]) rfl ht'
      ⟨.vecItems (.tuple [.prim .str, t]), .vecItems (.tuple [.prim .str, t]) (target.entries.map pairOf), link,
        fun v => outer (.dict (v.elements.map dictEntry))⟩ rest fin es pre _ vs n n' hm (by omega) hpi).trans ?_
    refine (last_vec env host d (.tuple [.prim .str, t]) es n' w hL hp.tail.right
      (fun c link outer rest fin hh => ih c link outer rest fin ht' hh hp.tail.right) hroom
      ⟨.vecItems (.tuple [.prim .str, t]), .vecItems (.tuple [.prim .str, t]) (target.entries.map pairOf), link,
        fun v => outer (.dict (v.elements.map dictEntry))⟩ _ rest fin (by omega)).trans ?_
    simp only [Val.elements, List.map_append, List.map_map, List.append_assoc]
    rw [show (dictEntry ∘ pairOf : Str × Val → Str × Val) = id from rfl, List.map_id]
  | component C ts pre e es t target n vs n' w hC hm hi he hL ih =>
    intro c link outer rest fin ht hh hp
    simp only [height, height_items] at hh
    have hpi := proper_of_items pre hp.tail.left
    have hl := height_le (rest.length + 1) (e :: es)
    have hr : ∀ i, room host (rest.map (·.cls)) (.fixed C i) = true := fun i => hroom _ _ (by simp; omega)
    obtain ⟨hf, ho⟩ := newFrame_component env hC c target n link outer
    have hts := streamable_component G hC ht
    rw [left, hf, ho]
    simp only [pstep, openStep, replaceTop, hr, if_true]
    obtain ⟨hlen, c', hx⟩ := left_fix env host G hG hsel d hroom C ⟨c, .fixStart C ts (fit env ts target.components), link, outer⟩ rest fin (e :: es) pre
      (.fixed C 0) [] ts [] target.components vs n n' hts rfl hm (by omega) hpi
    simp only [List.nil_append, List.length_nil, Nat.zero_add] at hx
    have hlt : pre.length < (fit env ts target.components).length := by
      rw [fit_size]
      exact (List.getElem?_eq_some_iff.1 hi).1
    have hg : (vs ++ (fit env ts target.components).drop pre.length).getD pre.length (env.ctor t) =
        (fit env ts target.components).getD pre.length (env.ctor t) := by
      rw [List.getD_eq_getElem?_getD, List.getElem?_append_right (by omega), hlen, Nat.sub_self, List.getElem?_drop, Nat.add_zero,
        ← List.getD_eq_getElem?_getD]
    refine hx.trans ?_
    refine (enter_fix env host C ts pre.length t hi e he ⟨c, .fixStart C ts (fit env ts target.components), link, outer⟩ c' _ rest fin n' (hr _)
      (hroom _ _ (by simp; omega)) es).trans ?_
    rw [hg, ih _ _ _ _ _ (streamableAll_get G hts hi) (by simp only [List.length_cons]; omega) hp.tail.right]
    simp only [putDown, plug, Handler.value, id]
    congr 3
    rw [List.drop_eq_getElem_cons hlt, List.set_append_right _ _ (by omega), hlen, Nat.sub_self, List.set_cons_zero]
  | number C ts pre es target n vs n' hC hle hm hes =>
    intro c link outer rest fin ht hh hp
    simp only [height, height_items] at hh
    have hpi := proper_of_items pre hp.tail.left
    have hr : ∀ i, room host (rest.map (·.cls)) (.fixed C i) = true := fun i => hroom _ _ (by simp; omega)
    obtain ⟨hf, ho⟩ := newFrame_component env hC c target n link outer
    have hts := streamable_component G hC ht
    rw [left, hf, ho]
    simp only [pstep, openStep, replaceTop, hr, if_true]
    obtain ⟨hlen, c', hx⟩ := left_fix env host G hG hsel d hroom C ⟨c, .fixStart C ts (fit env ts target.components), link, outer⟩ rest fin es pre
      (.fixed C 0) [] ts [] target.components vs n n' hts rfl hm (by omega) hpi
    simp only [List.nil_append, List.length_nil, Nat.zero_add] at hx
    refine hx.trans ?_
    rcases hes with rfl | ⟨hlt, more, rfl⟩ | ⟨heq, j, more, rfl⟩
    · rw [left, target_cons]; rfl
    · rw [left]
      simp only [pstep, List.getElem?_eq_getElem hlt, Event.startsValue, Bool.false_eq_true, if_false, refusedAt, Bool.false_and]
      rw [target_cons]
      rfl
    · have hno : ts[pre.length]? = none := by rw [heq]; simp
      have hne : first j ≠ .endArr := by cases j <;> simp [first]
      rw [left]
      generalize first j = e at hne
      have : pstep env host ⟨⟨c', .fixItems C ts pre.length (vs ++ (fit env ts target.components).drop pre.length), link, outer⟩ :: rest, fin, n'⟩ e =
          .fail := by
        cases e <;> first | exact absurd rfl hne | simp only [pstep, hno]
      rw [this]
      simp only [refusedAt, hno]
      rw [target_cons]
      rfl
  | mapEnded o t pre target n kvs n' hm =>
    intro c link outer rest fin ht hh hp
    rw [← List.append_nil (eventsMembers pre)] at hh hp ⊢
    simp only [height, height_members] at hh
    have hpi := proper_of_members pre hp.tail.left
    have hr : room host (rest.map (·.cls)) (.mapItems (.map o t)) = true := hroom _ _ (by simp; omega)
    rw [left]
    simp only [newFrame, openP, pstep, openStep, replaceTop, hr, if_true]
    refine (left_map env host G hG hsel d hroom (.map o t) t ht ⟨.mapItems (.map o t), .mapItems (.map o t) t target.entries, link, outer⟩ rest fin []
      pre _ kvs n n' hm (by omega) hpi).trans ?_
    rw [left, target_cons]
    rfl
  | entry o t pre k es target n kvs n' w hm hL ih =>
    intro c link outer rest fin ht hh hp
    simp only [height, height_members] at hh
    have hpi := proper_of_members pre hp.tail.left
    have hl := height_le (rest.length + 1) es
    have hr : room host (rest.map (·.cls)) (.mapItems (.map o t)) = true := hroom _ _ (by simp; omega)
    rw [left]
    simp only [newFrame, openP, pstep, openStep, replaceTop, hr, if_true]
    refine (left_map env host G hG hsel d hroom (.map o t) t ht ⟨.mapItems (.map o t), .mapItems (.map o t) t target.entries, link, outer⟩ rest fin
      (.key k :: es) pre _ kvs n n' hm (by omega) hpi).trans ?_
    refine (enter_map env host (.map o t) t k ⟨.mapItems (.map o t), .mapItems (.map o t) t target.entries, link, outer⟩ kvs rest fin n'
      (hroom _ _ (by simp; omega)) es).trans ?_
    rw [ih _ _ _ _ _ ht (by simp only [List.length_cons]; omega) hp.tail.right.tail]
    rfl
  | clsEnded k pre target n vs n' hm =>
    intro c link outer rest fin ht hh hp
    rw [← List.append_nil (eventsMembers pre)] at hh hp ⊢
    simp only [height, height_members] at hh
    have hpi := proper_of_members pre hp.tail.left
    have hr : room host (rest.map (·.cls)) (.object k) = true := hroom _ _ (by simp; omega)
    rw [left]
    simp only [newFrame, openP, if_neg (hG k ht).1, pstep, openStep, replaceTop, hr, if_true]
    refine (left_obj env host G hG hsel d hroom k ht ⟨.object k, .objItems k [], link, outer⟩ rest fin [] pre _ vs n n' hm (by omega) hpi).trans ?_
    rw [left, target_cons]
    rfl
  | unknown k pre key more target n vs n' hm hno =>
    intro c link outer rest fin ht hh hp
    simp only [height, height_members] at hh
    have hpi := proper_of_members pre hp.tail.left
    have hr : room host (rest.map (·.cls)) (.object k) = true := hroom _ _ (by simp; omega)
    rw [left]
    simp only [newFrame, openP, if_neg (hG k ht).1, pstep, openStep, replaceTop, hr, if_true]
    refine (left_obj env host G hG hsel d hroom k ht ⟨.object k, .objItems k [], link, outer⟩ rest fin (.key key :: more) pre _ vs n n' hm (by omega)
      hpi).trans ?_
    rw [left]
    simp only [pstep, hsel k (hG k ht).1 key, hno, refusedAt]
    rw [target_cons]
    rfl
  | member k pre key es target n vs n' i m w hm hi hmi hL ih =>
    intro c link outer rest fin ht hh hp
    simp only [height, height_members] at hh
    have hpi := proper_of_members pre hp.tail.left
    have hl := height_le (rest.length + 1) es
    have hr : room host (rest.map (·.cls)) (.object k) = true := hroom _ _ (by simp; omega)
    have hst : Streamable G m.ty := (hG k ht).2 _ (List.mem_of_getElem? hmi)
    rw [left]
    simp only [newFrame, openP, if_neg (hG k ht).1, pstep, openStep, replaceTop, hr, if_true]
    refine (left_obj env host G hG hsel d hroom k ht ⟨.object k, .objItems k [], link, outer⟩ rest fin (.key key :: es) pre _ vs n n' hm (by omega)
      hpi).trans ?_
    obtain ⟨h, he⟩ := enter_obj env host hsel k (hG k ht).1 key i m hi hmi ⟨.object k, .objItems k [], link, outer⟩ vs rest fin n'
      (fun h => hroom _ _ (by simp; omega)) es
    refine he.trans ?_
    rw [ih _ _ _ _ _ hst (by simp only [List.length_cons]; omega) hp.tail.right.tail]
    rfl
  | uptr t es target n w hL ih =>
    intro c link outer rest fin ht hh hp
    exact ih c link (fun v => outer (.uptr v)) rest fin ht hh hp
  | sptr t es target n w hL ih =>
    intro c link outer rest fin ht hh hp
    exact ih c link (fun v => outer (.sptr n v)) rest fin ht hh hp

end

end Verif.Core
