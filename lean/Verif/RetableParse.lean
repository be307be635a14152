import Verif.Retable
import Verif.Parse

/-!
# The parser with other tables of names (C124)

The handlers of the parser for the types with other tables do the same, event by event.
-/

set_option linter.unusedSectionVars false

namespace Verif.Retable
open Verif.Core Verif.EnumConv

/-- The class of handlers with other tables. -/
def reClass (f : Sub) : HClass → HClass
  | .parser t => .parser (re f t)
  | .optional t => .optional (re f t)
  | .vecItems t => .vecItems (re f t)
  | .setItems t => .setItems (re f t)
  | .fixed C i => .fixed (re f C) i
  | .mapItems C => .mapItems (re f C)
  | .object c => .object (f.cls c)

/-- The handler with other tables. -/
def reHandler (f : Sub) : Handler → Handler
  | .leaf p v => .leaf (rePrim f p) v
  | .vecStart t vs => .vecStart (re f t) vs
  | .vecItems t vs => .vecItems (re f t) vs
  | .setStart t vs => .setStart (re f t) vs
  | .setItems t storage vs => .setItems (re f t) storage vs
  | .fixStart C ts vs => .fixStart (re f C) (ts.map (re f)) vs
  | .fixItems C ts i vs => .fixItems (re f C) (ts.map (re f)) i vs
  | .mapStart C t kvs => .mapStart (re f C) (re f t) kvs
  | .mapItems C t kvs => .mapItems (re f C) (re f t) kvs
  | .objStart c vs => .objStart (f.cls c) vs
  | .objItems c vs => .objItems (f.cls c) vs
  | .unsupported v => .unsupported v

/-- The frame with other tables. -/
def reFrame (f : Sub) (g : Frame) : Frame := ⟨reClass f g.cls, reHandler f g.handler, g.link, g.wrap⟩

/-- The stack with other tables. -/
def reStack (f : Sub) (s : PState) : PState := ⟨s.stack.map (reFrame f), s.finished, s.next⟩

/-- The outcome with other tables. -/
def reStep (f : Sub) : POut → POut
  | .go s => .go (reStack f s)
  | .fail => .fail
  | .threw => .threw
  | .ub => .ub
  | .noHandler => .noHandler

/-- Handlers have the same size with other tables (they refer to their object and to the table of the type), and the hash tables are the same. -/
structure SameHost (f : Sub) (host host' : Host) : Prop where
  size : ∀ c, host'.size (reClass f c) = host.size c
  align : ∀ c, host'.align (reClass f c) = host.align c
  charSigned : host'.charSigned = host.charSigned
  table : ∀ c, host'.table (f.cls c) = host.table c

section
variable {f : Sub} {env env' : Env} (hr : Retabled f env env') (hv : ∀ table s, enumValue (f.tab table) s = enumValue table s)
  {host host' : Host} (hh : SameHost f host host')

section
include hr

theorem fit_re (ts : List Ty) (vs : List Val) : fit env' (ts.map (re f)) vs = fit env ts vs := by
  induction ts generalizing vs with
  | nil => rfl
  | cons t ts ih => simp only [List.map_cons, fit, hr.ctor, ih]

theorem fitMembers_re (ms : List Member) (vs : List Val) : fitMembers env' (ms.map (reMember f)) vs = fitMembers env ms vs := by
  induction ms generalizing vs with
  | nil => rfl
  | cons m ms ih => simp only [List.map_cons, fitMembers, reMember, hr.ctor, ih]

theorem openP_re (t : Ty) (target : Val) (n : Nat) :
    openP env' (re f t) target n = (reHandler f (openP env t target n).1, (openP env t target n).2.1, (openP env t target n).2.2) :=
  match t with
  | .prim p => by simp only [re, openP, reHandler]
  | .vec t => by simp only [re, openP, reHandler]
  | .arr k t => by
    have := fit_re hr (List.replicate k t) target.components
    simp only [List.map_replicate] at this
    simp only [re, openP, reHandler, List.map_replicate, this]
  | .set t => by simp only [re, openP, reHandler]
  | .map o t => by simp only [re, openP, reHandler]
  | .dict t => by simp only [re, openP, reHandler, res, rePrim]
  | .tuple ts => by simp only [re, res_map, openP, reHandler, fit_re hr]
  | .variant ts => by simp only [re, openP, reHandler]
  | .cls c => by
    simp only [re, openP, hr.members, List.map_eq_nil_iff]
    split
    · rfl
    · simp only [reHandler, fitMembers_re hr]
  | .uptr t => by simp only [re, openP, hr.ctor, openP_re t (env.ctor t) n]
  | .sptr t => by simp only [re, openP, hr.ctor, openP_re t (env.ctor t) (n + 1)]

include hv in
theorem leafParse_re (p : Prim) (e : Event) : leafParse env' (rePrim f p) e = leafParse env p e := by
  cases p <;> cases e <;> simp only [rePrim, leafParse, hr.clk, hv]
end

theorem stays_re (p : Prim) : (rePrim f p).stays = p.stays := by cases p <;> rfl

theorem direct_re (t : Ty) : direct (re f t) = direct t := by
  cases t with
  | prim p => cases p <;> simp only [re, rePrim, direct]
  | _ => simp only [re, direct]

theorem rePrim_direct {t : Ty} {p : Prim} (h : direct t = some p) : rePrim f p = p := by
  cases t with
  | prim q =>
    cases q <;> simp only [direct, reduceCtorEq, Option.some.injEq] at h
    case int => split at h <;> simp only [reduceCtorEq, Option.some.injEq] at h; subst h; rfl
    all_goals subst h; rfl
  | _ => simp [direct] at h

theorem isToken_re (t : Ty) (e : Event) : isToken (re f t) e = isToken t e :=
  match t with
  | .prim p => by cases p <;> simp only [re, rePrim, isToken]
  | .vec t | .arr _ t | .set t | .map _ t | .dict t | .tuple _ | .variant _ | .cls _ => by simp only [re, isToken]
  | .uptr t | .sptr t => by simp only [re, isToken]; exact isToken_re t e

theorem plug_re (h : Handler) (l : Link) (v : Val) : plug (reHandler f h) l v = reHandler f (plug h l v) := by
  cases h <;> cases l <;> rfl

include hh in
theorem used_re (K : List HClass) : used host' (K.map (reClass f)) = used host K := by
  induction K with
  | nil => rfl
  | cons c K ih => simp only [List.map_cons, used, hh.size, ih]

include hh in
theorem room_re (rest : List Frame) (c : HClass) : room host' ((rest.map (reFrame f)).map (·.cls)) (reClass f c) = room host (rest.map (·.cls)) c := by
  have : (rest.map (reFrame f)).map (·.cls) = (rest.map (·.cls)).map (reClass f) := by simp [List.map_map, Function.comp_def, reFrame]
  rw [this]
  simp only [room, List.length_map, used_re hh, hh.size, hh.align]

theorem popTo_re (w : Val → Val) (l : Link) (v : Val) (rest : List Frame) (fin : Option Val) (n : Nat) :
    popTo w l v (rest.map (reFrame f)) fin n = reStack f (popTo w l v rest fin n) := by
  cases rest with
  | nil => rfl
  | cons p rest => simp only [List.map_cons, popTo, reStack, reFrame, plug_re]

include hh in
theorem replaceTop_re (g : Frame) (rest : List Frame) (fin : Option Val) (n : Nat) (c : HClass) (h : Handler) :
    replaceTop host' (reFrame f g) (rest.map (reFrame f)) fin n (reClass f c) (reHandler f h) = reStep f (replaceTop host g rest fin n c h) := by
  simp only [replaceTop, room_re hh]
  split <;> rfl

include hr hv hh

theorem openStep_re (g : Frame) (rest : List Frame) (fin : Option Val) (n : Nat) (e : Event) :
    openStep env' host' (reFrame f g) (rest.map (reFrame f)) fin n e = reStep f (openStep env host g rest fin n e) := by
  obtain ⟨c, h, l, w⟩ := g
  cases h with
  | leaf p v =>
    simp only [openStep, reFrame, reHandler, leafParse_re hr hv, stays_re]
    cases leafParse env p e with
    | ub => rfl
    | fail => rfl
    | ok pv =>
      simp only []
      split
      · rfl
      · simp only [popTo_re, reStep]
  | vecStart t vs => cases e <;> first | rfl | exact replaceTop_re hh ⟨c, .vecStart t vs, l, w⟩ rest fin n (.vecItems t) (.vecItems t vs)
  | setStart t vs => cases e <;> first | rfl | exact replaceTop_re hh ⟨c, .setStart t vs, l, w⟩ rest fin n (.setItems t) (.setItems t [] vs)
  | fixStart C ts vs => cases e <;> first | rfl | exact replaceTop_re hh ⟨c, .fixStart C ts vs, l, w⟩ rest fin n (.fixed C 0) (.fixItems C ts 0 vs)
  | mapStart C t kvs => cases e <;> first | rfl | exact replaceTop_re hh ⟨c, .mapStart C t kvs, l, w⟩ rest fin n (.mapItems C) (.mapItems C t kvs)
  | objStart o vs => cases e <;> first | rfl | exact replaceTop_re hh ⟨c, .objStart o vs, l, w⟩ rest fin n (.object o) (.objItems o vs)
  | _ => rfl

omit hv in
theorem emplaceP_re (rest : List Frame) (n : Nat) (c : HClass) (t : Ty) (target : Val) (link : Link) (outer : Val → Val) (k k' : Frame → Nat → POut)
    (hk : ∀ g n, k' (reFrame f g) n = reStep f (k g n)) :
    emplaceP env' host' (rest.map (reFrame f)) n (reClass f c) (re f t) target link outer k' = reStep f (emplaceP env host rest n c t target link outer k) := by
  simp only [emplaceP, room_re hh, openP_re hr]
  split
  · exact hk ⟨c, _, link, _⟩ _
  · rfl

theorem pstep_re (s : PState) (e : Event) : pstep env' host' (reStack f s) e = reStep f (pstep env host s e) := by
  obtain ⟨stack, fin, n⟩ := s
  cases stack with
  | nil => rfl
  | cons g rest =>
    have hopen := openStep_re hr hv hh g rest fin n e
    obtain ⟨c, h, l, w⟩ := g
    cases h with
    | vecItems t vs =>
      have hp : ∀ p, direct t = some p → leafParse env' p e = leafParse env p e := fun p hd => by
        have := leafParse_re hr hv p e
        rwa [rePrim_direct hd] at this
      have he := emplaceP_re hr hh (⟨c, .vecItems t vs, l, w⟩ :: rest) n (.parser t) t (env.ctor t) .item id
        (fun g n => openStep env host g (⟨c, .vecItems t vs, l, w⟩ :: rest) fin n e) (fun g n => openStep env' host' g ((⟨c, .vecItems t vs, l, w⟩ :: rest).map (reFrame f)) fin n e)
        fun g n => openStep_re hr hv hh g (⟨c, .vecItems t vs, l, w⟩ :: rest) fin n e
      simp only [reStack, List.map_cons, reFrame, reHandler, pstep, direct_re, isToken_re, hr.ctor]
      cases e <;> first
        | (simp only [popTo_re, reStep]; done)
        | (cases hd : direct t with
          | some p => simp only [hp p hd]; cases leafParse env p _ <;> rfl
          | none =>
            simp only []
            split
            · exact he
            · rfl)
    | setItems t storage vs =>
      have hp : ∀ p, direct t = some p → leafParse env' p e = leafParse env p e := fun p hd => by
        have := leafParse_re hr hv p e
        rwa [rePrim_direct hd] at this
      have he := emplaceP_re hr hh (⟨c, .setItems t storage vs, l, w⟩ :: rest) n (.parser t) t (env.ctor t) .item id
        (fun g n => openStep env host g (⟨c, .setItems t storage vs, l, w⟩ :: rest) fin n e) (fun g n => openStep env' host' g ((⟨c, .setItems t storage vs, l, w⟩ :: rest).map (reFrame f)) fin n e)
        fun g n => openStep_re hr hv hh g (⟨c, .setItems t storage vs, l, w⟩ :: rest) fin n e
      simp only [reStack, List.map_cons, reFrame, reHandler, pstep, direct_re, isToken_re, hr.ctor, hr.less]
      cases e <;> first
        | (simp only [popTo_re, reStep]; done)
        | (cases hd : direct t with
          | some p => simp only [hp p hd]; cases leafParse env p _ <;> rfl
          | none =>
            simp only []
            split
            · exact he
            · rfl)
    | fixItems C ts i vs =>
      simp only [reStack, List.map_cons, reFrame, reHandler, pstep, List.getElem?_map]
      cases ts[i]? with
      | none => cases e <;> first | rfl | simp only [Option.map_none, popTo_re, reStep]
      | some t =>
        have hroom := room_re hh rest (.fixed C (i + 1))
        simp only [reClass] at hroom
        simp only [Option.map_some, hroom, hr.ctor]
        split
        · split
          · exact emplaceP_re hr hh (⟨.fixed C (i + 1), .fixItems C ts (i + 1) vs, l, w⟩ :: rest) n (.parser t) t (vs.getD i (env.ctor t)) (.nth i) id _ _
              fun g n => openStep_re hr hv hh g (⟨.fixed C (i + 1), .fixItems C ts (i + 1) vs, l, w⟩ :: rest) fin n e
          · rfl
        · rfl
    | mapItems C t kvs =>
      simp only [reStack, List.map_cons, reFrame, reHandler, pstep, hr.ctor]
      cases e with
      | endObj => simp only [popTo_re, reStep]
      | key k =>
        exact emplaceP_re hr hh (⟨c, .mapItems C t kvs, l, w⟩ :: rest) n (.parser t) t ((kvs.lookup k).getD (env.ctor t)) (.key k) id _ _ fun g n => rfl
      | _ => rfl
    | objItems o vs =>
      have hsel : ∀ k, selectMember env' host' (f.cls o) k = selectMember env host o k := fun k => by
        simp only [selectMember, hh.charSigned, hh.table, hr.members, List.map_map]
        rfl
      simp only [reStack, List.map_cons, reFrame, reHandler, pstep, hsel, hr.members, List.getElem?_map]
      cases e with
      | endObj => simp only [popTo_re, reStep]
      | key k =>
        simp only []
        cases selectMember env host o k with
        | reject => rfl
        | memoryError => rfl
        | member i =>
          simp only []
          cases (env.members o)[i]? with
          | none => rfl
          | some m =>
            simp only [Option.map_some, reMember, hr.ctor]
            split
            · exact emplaceP_re hr hh (⟨c, .objItems o vs, l, w⟩ :: rest) n (.optional m.ty) m.ty (env.ctor m.ty) (.member i) .present _ _ fun g n => rfl
            · exact emplaceP_re hr hh (⟨c, .objItems o vs, l, w⟩ :: rest) n (.parser m.ty) m.ty (vs.getD i (env.ctor m.ty)) (.member i) id _ _ fun g n => rfl
      | _ => rfl
    | _ => exact hopen

theorem prun_re (es : List Event) (s : PState) : prun env' host' (reStack f s) es = reStep f (prun env host s es) := by
  induction es generalizing s with
  | nil => rfl
  | cons e es ih =>
    simp only [prun, pstep_re hr hv hh]
    cases pstep env host s e with
    | go s' => exact ih s'
    | _ => rfl

omit hr hv hh in
theorem value_re (h : Handler) : (reHandler f h).value = h.value := by cases h <;> rfl

omit hr hv hh in
theorem collapse_re (g : Frame) (rest : List Frame) : collapse (reFrame f g) (rest.map (reFrame f)) = reFrame f (collapse g rest) := by
  simp only [collapse]
  induction rest generalizing g with
  | nil => rfl
  | cons p rest ih =>
    simp only [List.map_cons, List.foldl_cons]
    rw [← ih]
    simp only [reFrame, value_re, plug_re]

omit hr hv hh in
theorem target_re (s : PState) : (reStack f s).target = s.target := by
  obtain ⟨stack, fin, n⟩ := s
  cases stack with
  | nil => rfl
  | cons g rest =>
    simp only [reStack, List.map_cons, PState.target, collapse_re]
    simp only [reFrame, value_re]

omit hv hh in
theorem start_re (t : Ty) (target : Val) (n : Nat) : start env' (re f t) target n = reStack f (start env t target n) := by
  simp only [start, openP_re hr]
  rfl

theorem parseBool_re (t : Ty) (feed : Feed) (target : Val) (n : Nat) : parseBool env' host' (re f t) feed target n = parseBool env host t feed target n := by
  have hroom := room_re hh [] (.parser t)
  simp only [List.map_nil, reClass] at hroom
  simp only [parseBool, hroom, start_re hr, prun_re hr hv hh]
  cases prun env host (start env t target n) feed.events with
  | go s => simp only [reStep, target_re]
  | _ => rfl

end

end Verif.Retable
