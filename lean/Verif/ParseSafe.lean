import Verif.ParseFacts
import Verif.ReadLemmas

/-!
# Undefined behaviour of the streaming parser
-/

namespace Verif.Core
open Verif.PerfectHash

/-- Objects are parsed for classes with members only (other classes have no parser). -/
def Handler.inhabited (env : Env) : Handler → Prop
  | .objStart c _ => env.members c ≠ []
  | .objItems c _ => env.members c ≠ []
  | _ => True

/-- The invariant of the handler stack. -/
def PState.inhabited (env : Env) (s : PState) : Prop := ∀ f ∈ s.stack, f.handler.inhabited env

/-- The strings of the event do not make the clock overflow. -/
def Event.calm (env : Env) : Event → Prop
  | .str s => CalmStr env s
  | _ => True

/-- No undefined behaviour, and the invariant is kept. -/
def POut.safe (env : Env) : POut → Prop
  | .ub => False
  | .go s => s.inhabited env
  | _ => True

theorem leafParse_calm (env : Env) (p : Prim) (e : Event) (h : e.calm env) : leafParse env p e ≠ .ub := by
  cases p with
  | time =>
    cases e with
    | str s => have := h.1; simp only [leafParse]; cases hp : DateTime.parseDatetime env.clk s <;> simp_all
    | _ => simp [leafParse]
  | date =>
    cases e with
    | str s => have := h.2; simp only [leafParse]; cases hp : DateTime.readDate env.clk s <;> simp_all
    | _ => simp [leafParse]
  | bytes =>
    cases e with
    | str s => simp only [leafParse]; cases Base64.decode s <;> simp
    | _ => simp [leafParse]
  | enumStr t =>
    cases e with
    | str s => simp only [leafParse]; cases EnumConv.enumValue t s <;> simp
    | _ => simp [leafParse]
  | int t =>
    cases e with
    | num n => simp only [leafParse, numParse]; split <;> simp
    | _ => simp [leafParse]
  | flt t =>
    cases e with
    | num n => simp only [leafParse, numParse]; split <;> simp
    | _ => simp [leafParse]
  | enumInt t =>
    cases e with
    | num n => simp only [leafParse, numParse]; split <;> simp
    | _ => simp [leafParse]
  | null => cases e <;> simp [leafParse]
  | bool => cases e <;> simp [leafParse]
  | str => cases e <;> simp [leafParse]

theorem plug_inhabited (env : Env) (h : Handler) (l : Link) (v : Val) (hh : h.inhabited env) : (plug h l v).inhabited env := by
  unfold plug
  split <;> exact hh

theorem popTo_inhabited (env : Env) (wrap : Val → Val) (link : Link) (v : Val) (rest : List Frame) (fin : Option Val) (n : Nat)
    (h : ∀ f ∈ rest, f.handler.inhabited env) : (popTo wrap link v rest fin n).inhabited env := by
  cases rest with
  | nil => intro f hf; cases hf
  | cons p rest =>
    intro f hf
    rcases List.mem_cons.1 hf with rfl | hf
    · exact plug_inhabited env _ _ _ (h p (by simp))
    · exact h f (by simp [hf])

theorem openP_inhabited (env : Env) : ∀ (t : Ty) (target : Val) (n : Nat), (openP env t target n).1.inhabited env
  | .prim _, _, _ => trivial
  | .vec _, _, _ => trivial
  | .arr _ _, _, _ => trivial
  | .set _, _, _ => trivial
  | .map _ _, _, _ => trivial
  | .dict _, _, _ => trivial
  | .tuple _, _, _ => trivial
  | .variant _, _, _ => trivial
  | .cls c, target, n => by
    rw [openP]
    split
    · trivial
    · assumption
  | .uptr t, target, n => by rw [openP]; exact openP_inhabited env t _ _
  | .sptr t, target, n => by rw [openP]; exact openP_inhabited env t _ _

theorem cons_inhabited {env : Env} {f : Frame} {rest : List Frame} (h : f.handler.inhabited env) (hr : ∀ g ∈ rest, g.handler.inhabited env) :
    ∀ g ∈ f :: rest, g.handler.inhabited env := by
  intro g hg
  rcases List.mem_cons.1 hg with rfl | hg
  · exact h
  · exact hr g hg

theorem replaceTop_safe (env : Env) (host : Host) (f : Frame) (rest : List Frame) (fin : Option Val) (n : Nat) (c : HClass) (h : Handler)
    (hh : h.inhabited env) (hr : ∀ g ∈ rest, g.handler.inhabited env) : (replaceTop host f rest fin n c h).safe env := by
  unfold replaceTop
  split
  · exact cons_inhabited hh hr
  · trivial

theorem openStep_safe (env : Env) (host : Host) (f : Frame) (rest : List Frame) (fin : Option Val) (n : Nat) (e : Event) (he : e.calm env)
    (hf : f.handler.inhabited env) (hr : ∀ g ∈ rest, g.handler.inhabited env) : (openStep env host f rest fin n e).safe env := by
  obtain ⟨cls, h, link, wrap⟩ := f
  unfold openStep
  cases h with
  | leaf p v =>
    simp only
    have := leafParse_calm env p e he
    cases hl : leafParse env p e with
    | ub => exact absurd hl this
    | fail => trivial
    | ok pv =>
      simp only
      split
      · exact cons_inhabited trivial hr
      · exact popTo_inhabited env _ _ _ _ _ _ hr
  | vecStart t vs => cases e <;> first | trivial | exact replaceTop_safe env host _ _ _ _ _ _ trivial hr
  | setStart t vs => cases e <;> first | trivial | exact replaceTop_safe env host _ _ _ _ _ _ trivial hr
  | fixStart C ts vs => cases e <;> first | trivial | exact replaceTop_safe env host _ _ _ _ _ _ trivial hr
  | mapStart C t kvs => cases e <;> first | trivial | exact replaceTop_safe env host _ _ _ _ _ _ trivial hr
  | objStart c vs => cases e <;> first | trivial | exact replaceTop_safe env host _ _ _ _ _ _ hf hr
  | _ => trivial

theorem emplaceP_safe (env : Env) (host : Host) (rest : List Frame) (n : Nat) (c : HClass) (t : Ty) (target : Val) (link : Link) (outer : Val → Val)
    (k : Frame → Nat → POut) (hk : ∀ g m, g.handler.inhabited env → (k g m).safe env) : (emplaceP env host rest n c t target link outer k).safe env := by
  unfold emplaceP
  split
  · have := openP_inhabited env t target n
    generalize openP env t target n = o at this ⊢
    exact hk _ _ this
  · trivial

theorem pstep_safe (env : Env) (host : Host) (hsel : Selects env host) (s : PState) (e : Event) (he : e.calm env) (hs : s.inhabited env) :
    (pstep env host s e).safe env := by
  obtain ⟨stack, fin, n⟩ := s
  cases stack with
  | nil => trivial
  | cons f rest =>
    have hf : f.handler.inhabited env := hs f (by simp)
    have hr : ∀ g ∈ rest, g.handler.inhabited env := fun g hg => hs g (by simp [hg])
    have hitem : ∀ (f : Frame) (t target link outer), f.handler.inhabited env → (emplaceP env host (f :: rest) n (.parser t) t target link outer fun g n =>
        openStep env host g (f :: rest) fin n e).safe env := fun f t target link outer hf =>
      emplaceP_safe env host _ _ _ _ _ _ _ _ fun g m hg => openStep_safe env host g _ fin m e he hg (cons_inhabited hf hr)
    have hkey : ∀ (c t target link outer), (emplaceP env host (f :: rest) n c t target link outer fun g n => .go ⟨g :: f :: rest, fin, n⟩).safe env :=
      fun c t target link outer => emplaceP_safe env host _ _ _ _ _ _ _ _ fun g m hg => cons_inhabited hg (cons_inhabited hf hr)
    obtain ⟨cls, h, link, wrap⟩ := f
    unfold pstep
    cases h with
    | vecItems t vs =>
      have key : (match direct t with
          | some p => (match leafParse env p e with
            | .ub => POut.ub
            | .fail => .fail
            | .ok pv => .go ⟨⟨cls, .vecItems t (vs ++ [Val.prim pv]), link, wrap⟩ :: rest, fin, n⟩)
          | none =>
            if isToken t e then
              emplaceP env host (⟨cls, .vecItems t vs, link, wrap⟩ :: rest) n (.parser t) t (env.ctor t) .item id fun g n =>
                openStep env host g (⟨cls, .vecItems t vs, link, wrap⟩ :: rest) fin n e
            else .fail).safe env := by
        cases direct t with
        | some p =>
          simp only
          have := leafParse_calm env p e he
          cases hl : leafParse env p e with
          | ub => exact absurd hl this
          | fail => trivial
          | ok pv => exact cons_inhabited trivial hr
        | none =>
          simp only
          split
          · exact hitem _ _ _ _ _ trivial
          · trivial
      cases e <;> first | exact popTo_inhabited env _ _ _ _ _ _ hr | exact key
    | setItems t storage vs =>
      have key : (match direct t with
          | some p => (match leafParse env p e with
            | .ub => POut.ub
            | .fail => .fail
            | .ok pv => .go ⟨⟨cls, .setItems t storage (setInsert env.less (Val.prim pv) vs), link, wrap⟩ :: rest, fin, n⟩)
          | none =>
            if isToken t e then
              emplaceP env host (⟨cls, .setItems t storage vs, link, wrap⟩ :: rest) n (.parser t) t (env.ctor t) .item id fun g n =>
                openStep env host g (⟨cls, .setItems t storage vs, link, wrap⟩ :: rest) fin n e
            else .fail).safe env := by
        cases direct t with
        | some p =>
          simp only
          have := leafParse_calm env p e he
          cases hl : leafParse env p e with
          | ub => exact absurd hl this
          | fail => trivial
          | ok pv => exact cons_inhabited trivial hr
        | none =>
          simp only
          split
          · exact hitem _ _ _ _ _ trivial
          · trivial
      cases e <;> first | exact popTo_inhabited env _ _ _ _ _ _ hr | exact key
    | fixItems C ts i vs =>
      simp only
      cases ts[i]? with
      | none => cases e <;> first | trivial | exact popTo_inhabited env _ _ _ _ _ _ hr
      | some t =>
        simp only
        split
        · split
          · exact hitem ⟨.fixed C (i + 1), .fixItems C ts (i + 1) vs, link, wrap⟩ _ _ _ _ trivial
          · trivial
        · trivial
    | mapItems C t kvs =>
      cases e with
      | endObj => exact popTo_inhabited env _ _ _ _ _ _ hr
      | key k => exact hkey _ _ _ _ _
      | _ => trivial
    | objItems c vs =>
      cases e with
      | endObj => exact popTo_inhabited env _ _ _ _ _ _ hr
      | key k =>
        simp only
        have hne : env.members c ≠ [] := hf
        rw [hsel c hne k]
        cases hm : memberAt (env.members c) k with
        | none => trivial
        | some i =>
          simp only
          have hlt : i < (env.members c).length := by
            unfold memberAt at hm
            exact (List.findIdx?_eq_some_iff_findIdx_eq.1 hm).1
          rw [List.getElem?_eq_getElem hlt]
          simp only
          split
          · exact hkey _ _ _ _ _
          · exact hkey _ _ _ _ _
      | _ => trivial
    | leaf p v => exact openStep_safe env host _ _ _ _ _ he hf hr
    | vecStart t vs => exact openStep_safe env host _ _ _ _ _ he hf hr
    | setStart t vs => exact openStep_safe env host _ _ _ _ _ he hf hr
    | fixStart C ts vs => exact openStep_safe env host _ _ _ _ _ he hf hr
    | mapStart C t kvs => exact openStep_safe env host _ _ _ _ _ he hf hr
    | objStart c vs => exact openStep_safe env host _ _ _ _ _ he hf hr
    | unsupported v => exact openStep_safe env host _ _ _ _ _ he hf hr

theorem prun_safe (env : Env) (host : Host) (hsel : Selects env host) (es : List Event) :
    ∀ s, (∀ e ∈ es, e.calm env) → s.inhabited env → prun env host s es ≠ .ub := by
  induction es with
  | nil => intro s _ _; simp [prun]
  | cons e es ih =>
    intro s he hs
    have h1 := pstep_safe env host hsel s e (he e (by simp)) hs
    simp only [prun]
    generalize pstep env host s e = r at h1 ⊢
    cases r with
    | go s' => exact ih s' (fun e h => he e (by simp [h])) h1
    | ub => cases h1
    | fail => simp
    | threw => simp
    | noHandler => simp

mutual
/-- The strings of a document are those of its events. -/
theorem events_calm (env : Env) : ∀ j, Calm env j → ∀ e ∈ events j, e.calm env
  | .null, _, e, he => by simp only [events, List.mem_singleton] at he; subst he; trivial
  | .bool _, _, e, he => by simp only [events, List.mem_singleton] at he; subst he; trivial
  | .num _, _, e, he => by simp only [events, List.mem_singleton] at he; subst he; trivial
  | .str s, h, e, he => by simp only [events, List.mem_singleton] at he; subst he; exact h
  | .arr js, h, e, he => by
    simp only [events, List.mem_cons, List.mem_append, List.not_mem_nil, or_false] at he
    rcases he with rfl | he | rfl
    · trivial
    · exact eventsItems_calm env js h e he
    · trivial
  | .obj ms, h, e, he => by
    simp only [events, List.mem_cons, List.mem_append, List.not_mem_nil, or_false] at he
    rcases he with rfl | he | rfl
    · trivial
    · exact eventsMembers_calm env ms h e he
    · trivial

theorem eventsItems_calm (env : Env) : ∀ js, CalmAll env js → ∀ e ∈ eventsItems js, e.calm env
  | [], _, e, he => by simp [eventsItems] at he
  | j :: js, h, e, he => by
    simp only [eventsItems, List.mem_append] at he
    rcases he with he | he
    · exact events_calm env j h.1 e he
    · exact eventsItems_calm env js h.2 e he

theorem eventsMembers_calm (env : Env) : ∀ ms, CalmFields env ms → ∀ e ∈ eventsMembers ms, e.calm env
  | [], _, e, he => by simp [eventsMembers] at he
  | (k, j) :: ms, h, e, he => by
    simp only [eventsMembers, List.mem_cons, List.mem_append] at he
    rcases he with rfl | he | he
    · trivial
    · exact events_calm env j h.1 e he
    · exact eventsMembers_calm env ms h.2 e he
end

theorem start_inhabited (env : Env) (t : Ty) (target : Val) (n : Nat) : (start env t target n).inhabited env := by
  unfold start
  have := openP_inhabited env t target n
  generalize openP env t target n = o at this ⊢
  intro f hf
  simp only [List.mem_singleton] at hf
  subst hf
  exact this

end Verif.Core
