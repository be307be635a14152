import Verif.ReadMore
import Verif.ParseError

/-!
# Contents of variables that were never written

`T item;` (deserialize_vector.hpp:24) leaves an object of a type without constructor indeterminate.
`Env.fresh` is what is found there. `Alike env t v v'` relates two contents of a variable that differ only
where reading a document overwrites the variable anyway; the lemmas show that what a document denotes
depends on nothing else.
-/

namespace Verif.Core
open Verif.Numeric Verif.EnumConv

/-- Two contents of a variable of the type that agree on the default members, of the object itself and of
the objects directly inside it (elements of tuples, members). -/
inductive Alike (env : Env) : Ty → Val → Val → Prop
  | tuple (ts : List Ty) (v v' : Val) : v.components.length = v'.components.length →
      (∀ (i : Nat) (t : Ty) (x x' : Val), ts[i]? = some t → v.components[i]? = some x → v'.components[i]? = some x' → Alike env t x x') →
      Alike env (.tuple ts) v v'
  | cls (c : Nat) (v v' : Val) : v.members.length = v'.members.length →
      (∀ (i : Nat) (m : Member), (env.members c)[i]? = some m → m.kind = .default → ∃ x, v.members[i]? = some x ∧ v'.members[i]? = some x) →
      (∀ (i : Nat) (m : Member) (x x' : Val), (env.members c)[i]? = some m → m.kind ≠ .optional → v.members[i]? = some x → v'.members[i]? = some x' →
        Alike env m.ty x x') →
      Alike env (.cls c) v v'
  | other (t : Ty) (v v' : Val) : (∀ ts, t ≠ .tuple ts) → (∀ c, t ≠ .cls c) → Alike env t v v'

/-- The environment with other contents of local variables. -/
def Env.withFresh (env : Env) (f : Ty → Val) : Env := { env with fresh := f }

theorem Env.withFresh_members (env : Env) (f : Ty → Val) (c : Nat) : (env.withFresh f).members c = env.members c := rfl

theorem Env.withFresh_back (env : Env) (f : Ty → Val) : (env.withFresh f).withFresh env.fresh = env := rfl

theorem Alike.symm {env : Env} {t : Ty} {v v' : Val} (h : Alike env t v v') : Alike env t v' v := by
  induction h with
  | tuple ts v v' hl _ ih => exact .tuple ts v' v hl.symm fun i t x x' ht hx hx' => ih i t x' x ht hx' hx
  | cls c v v' hl hd _ ih =>
    exact .cls c v' v hl.symm (fun i m hm hk => let ⟨x, h1, h2⟩ := hd i m hm hk; ⟨x, h2, h1⟩)
      fun i m x x' hm hk hx hx' => ih i m x' x hm hk hx' hx
  | other t v v' h1 h2 => exact .other t v' v h1 h2

theorem Alike.withFresh {env : Env} {f : Ty → Val} {t : Ty} {v v' : Val} (h : Alike env t v v') : Alike (env.withFresh f) t v v' := by
  induction h with
  | tuple ts v v' hl _ ih => exact .tuple ts v v' hl ih
  | cls c v v' hl hd _ ih => exact .cls c v v' hl hd ih
  | other t v v' h1 h2 => exact .other t v v' h1 h2

theorem LeafReads.withFresh {env : Env} (f : Ty → Val) {p : Prim} {j : Json} {pv : PVal} (h : LeafReads env p j pv) :
    LeafReads (env.withFresh f) p j pv := by
  cases h with
  | null => exact .null
  | bool b => exact .bool b
  | int t v h => exact .int t v h
  | flt t n => exact .flt t n
  | str s => exact .str s
  | bytes s bs h => exact .bytes s bs h
  | time s t h => exact .time s t h
  | date s y m d h => exact .date s y m d h
  | enumInt t v h => exact .enumInt t v h
  | enumStr table s v h => exact .enumStr table s v h

theorem LeafReads.of_withFresh {env : Env} {f : Ty → Val} {p : Prim} {j : Json} {pv : PVal} (h : LeafReads (env.withFresh f) p j pv) :
    LeafReads env p j pv := LeafReads.withFresh (env := env.withFresh f) env.fresh h

theorem fails_withFresh (env : Env) (f : Ty → Val) : ∀ j t, Fails env t j → Fails (env.withFresh f) t j := by
  apply lexInd
  intro j t ihj iht h
  cases h with
  | prim p _ h => exact .prim p j fun pv hp => h pv hp.of_withFresh
  | array _ _ h1 h2 => exact .array t j h1 h2
  | object _ _ h1 h2 => exact .object t j h1 h2
  | vec t js x hm h => exact .vec t js x hm (ihj x (size_item hm) t h)
  | arr n t js x hm h => exact .arr n t js x hm (ihj x (size_item hm) t h)
  | arrLength n t js h => exact .arrLength n t js h
  | set t js x hm h => exact .set t js x hm (ihj x (size_item hm) t h)
  | map o t ms p hm h => exact .map o t ms p hm (ihj p.2 (size_field (by exact hm)) t h)
  | dict t js x hm h => exact .dict t js x hm (ihj x (size_item hm) _ h)
  | tuple ts js i t x h1 h2 h => exact .tuple ts js i t x h1 h2 (ihj x (size_item (List.mem_of_getElem? h2)) t h)
  | tupleLength ts js h => exact .tupleLength ts js h
  | variant ts _ h => exact .variant ts j fun t ht => iht t (size_alt ht) (h t ht)
  | member c ms m i x h1 h2 h => exact .member c ms m i x h1 h2 (ihj x (size_field (findMember_mem h2)) m.ty h)
  | missing c ms m h1 h2 h3 => exact .missing c ms m h1 h2 h3
  | uptr t _ h => exact .uptr t j (iht t (by simp +arith) h)

theorem fails_withFresh_iff (env : Env) (f : Ty → Val) (t : Ty) (j : Json) : Fails (env.withFresh f) t j ↔ Fails env t j :=
  ⟨fun h => fails_withFresh (env.withFresh f) env.fresh j t h, fails_withFresh env f j t⟩

theorem Child.withFresh {env : Env} {f : Ty → Val} {t t' : Ty} {j j' : Json} (h : Child env t j t' j') : Child (env.withFresh f) t j t' j' := by
  cases h with
  | vec t js x h => exact .vec _ js _ h
  | arr n t js x h => exact .arr n _ js _ h
  | set t js x h => exact .set _ js _ h
  | map o t ms p h => exact .map o _ ms p h
  | dict t js x h => exact .dict _ js _ h
  | tuple ts js i t x h1 h2 => exact .tuple ts js i _ _ h1 h2
  | variant ts _ t h => exact .variant ts _ _ h
  | cls c ms m i x h1 h2 => exact .cls c ms m i _ h1 h2
  | uptr t _ => exact .uptr _ _

theorem Part.withFresh {env : Env} {f : Ty → Val} {t t' : Ty} {j j' : Json} (h : Part env t j t' j') : Part (env.withFresh f) t j t' j' := by
  induction h with
  | self => exact .self
  | child t1 j1 t2 j2 _ hc ih => exact .child t1 j1 t2 j2 ih hc.withFresh

theorem badMember_withFresh_iff (env : Env) (f : Ty → Val) (fields : List (Str × Json)) (m : Member) :
    BadMember (env.withFresh f) fields m ↔ BadMember env fields m := by
  unfold BadMember
  simp only [fails_withFresh_iff]

theorem Unmasked.withFresh {env : Env} (f : Ty → Val) {t : Ty} {j : Json} (h : Unmasked env t j) : Unmasked (env.withFresh f) t j := by
  intro c fields hp ⟨m, hm, hb⟩
  obtain ⟨pre, m', post, h1, h2, h3⟩ := h c fields (Part.withFresh (env := env.withFresh f) (f := env.fresh) hp) ⟨m, hm, (badMember_withFresh_iff env f fields m).1 hb⟩
  exact ⟨pre, m', post, h1, (badMember_withFresh_iff env f fields m').2 h2, h3⟩

theorem VariantsUnmasked.withFresh {env : Env} (f : Ty → Val) {t : Ty} {j : Json} (h : VariantsUnmasked env t j) :
    VariantsUnmasked (env.withFresh f) t j := fun ts j' hp =>
  (h ts j' (Part.withFresh (env := env.withFresh f) (f := env.fresh) hp)).withFresh f

mutual
theorem Calm.withFresh {env : Env} (f : Ty → Val) : ∀ {j : Json}, Calm env j → Calm (env.withFresh f) j
  | .null, _ => trivial
  | .bool _, _ => trivial
  | .num _, _ => trivial
  | .str _, h => h
  | .arr js, h => CalmAll.withFresh f (js := js) h
  | .obj ms, h => CalmFields.withFresh f (ms := ms) h

theorem CalmAll.withFresh {env : Env} (f : Ty → Val) : ∀ {js : List Json}, CalmAll env js → CalmAll (env.withFresh f) js
  | [], _ => trivial
  | _ :: _, h => ⟨Calm.withFresh f h.1, CalmAll.withFresh f h.2⟩

theorem CalmFields.withFresh {env : Env} (f : Ty → Val) : ∀ {ms : List (Str × Json)}, CalmFields env ms → CalmFields (env.withFresh f) ms
  | [], _ => trivial
  | (_, _) :: _, h => ⟨Calm.withFresh f h.1, CalmFields.withFresh f h.2⟩
end

/-- Other contents of local variables, alike for every type that is read; objects made by
`std::make_unique` have their members. -/
def AlikeFresh (env : Env) (f : Ty → Val) (t : Ty) (j : Json) : Prop :=
  (∀ t' j', Part env t j t' j' → Alike env t' (env.fresh t') (f t')) ∧ ∀ t' j', Part env t j (.uptr t') j' → Alike env t' (env.ctor t') (env.ctor t')

theorem AlikeFresh.child {env : Env} {f : Ty → Val} {t t' : Ty} {j j' : Json} (h : AlikeFresh env f t j) (hc : Child env t j t' j') :
    AlikeFresh env f t' j' :=
  ⟨fun t2 j2 hp => h.1 t2 j2 (Part.of_child hc hp), fun t2 j2 hp => h.2 t2 j2 (Part.of_child hc hp)⟩

/-- A list that is as long as the other and alike at each place starts alike. -/
theorem alike_head {env : Env} {t : Ty} {targets targets' : List Val} {d d' : Val} (hl : targets.length = targets'.length)
    (h : ∀ x x', targets[0]? = some x → targets'[0]? = some x' → Alike env t x x') (hd : Alike env t d d') :
    Alike env t (targets.headD d) (targets'.headD d') := by
  cases targets with
  | nil =>
    cases targets' with
    | nil => exact hd
    | cons => simp at hl
  | cons x xs =>
    cases targets' with
    | nil => simp at hl
    | cons x' xs' => exact h x x' rfl rfl

theorem decodes_alike (env : Env) (f : Ty → Val) : ∀ j t, AlikeFresh env f t j → ∀ target target' v, Alike env t target target' →
    Decodes env t j target v → Decodes (env.withFresh f) t j target' v := by
  apply lexInd
  intro j t ihj iht hF target target' v ha hd
  have all : ∀ (t' : Ty) (js : List Json), (∀ x ∈ js, sizeOf x < sizeOf j ∧ AlikeFresh env f t' x) → ∀ vs, DecodesAll env t' js vs →
      DecodesAll (env.withFresh f) t' js vs := by
    intro t' js
    induction js with
    | nil => intro _ vs h; cases h; exact .nil _
    | cons x js ih =>
      intro hs vs h
      cases h with
      | cons _ _ _ v vs h1 h2 =>
        obtain ⟨hx, hf⟩ := hs x (by simp)
        exact .cons t' x js v vs (ihj x hx t' hf _ _ v (hf.1 t' x .self) h1) (ih (fun y hy => hs y (by simp [hy])) vs h2)
  cases hd with
  | prim p _ _ pv h => exact .prim p j target' pv (h.withFresh f)
  | vec t js _ vs h => exact .vec t js target' vs (all t js (fun x hx => ⟨size_item hx, hF.child (.vec t js x hx)⟩) vs h)
  | arr n t js _ vs hl h => exact .arr n t js target' vs hl (all t js (fun x hx => ⟨size_item hx, hF.child (.arr n t js x hx)⟩) vs h)
  | set t js _ vs h => exact .set t js target' vs (all t js (fun x hx => ⟨size_item hx, hF.child (.set t js x hx)⟩) vs h)
  | dict t js _ vs h => exact .dict t js target' vs (all _ js (fun x hx => ⟨size_item hx, hF.child (.dict t js x hx)⟩) vs h)
  | map o t ms _ kvs h =>
    refine .map o t ms target' kvs ?_
    have : ∀ (l : List (Str × Json)), (∀ p ∈ l, sizeOf p.2 < sizeOf (Json.obj ms) ∧ AlikeFresh env f t p.2) → ∀ kvs, DecodesEntries env t l kvs →
        DecodesEntries (env.withFresh f) t l kvs := by
      intro l
      induction l with
      | nil => intro _ kvs h; cases h; exact .nil _
      | cons p l ih =>
        intro hs kvs h
        cases h with
        | cons _ k x _ v kvs h1 h2 =>
          obtain ⟨hx, hf⟩ := hs (k, x) (by simp)
          exact .cons t k x l v kvs (ihj x hx t hf _ _ v (hf.1 t x .self) h1) (ih (fun y hy => hs y (by simp [hy])) kvs h2)
    exact this ms (fun p hp => ⟨size_field (by exact hp), hF.child (.map o t ms p hp)⟩) kvs h
  | tuple ts js _ vs h =>
    refine .tuple ts js target' vs ?_
    have : ∀ (l : List Json) (ts' : List Ty), (∀ (i : Nat) (t : Ty) (x : Json), ts'[i]? = some t → l[i]? = some x → sizeOf x < sizeOf (Json.arr js) ∧ AlikeFresh env f t x) →
        ∀ (targets targets' vs : List Val), targets.length = targets'.length →
        (∀ (i : Nat) (t : Ty) (x x' : Val), ts'[i]? = some t → targets[i]? = some x → targets'[i]? = some x' → Alike env t x x') →
        DecodesEach env ts' l targets vs → DecodesEach (env.withFresh f) ts' l targets' vs := by
      intro l
      induction l with
      | nil => intro ts' _ targets targets' vs _ _ hd; cases hd; exact .nil _
      | cons x l ih =>
        intro ts' hsub targets targets' vs hl hal hd
        cases hd with
        | cons t ts' _ _ _ v vs d1 d2 =>
          obtain ⟨hs, hf⟩ := hsub 0 t x rfl rfl
          refine .cons t ts' x l targets' v vs (ihj x hs t hf _ _ v (alike_head hl (fun y y' h1 h2 => hal 0 t y y' rfl h1 h2) (hf.1 t x .self)) d1)
            (ih ts' (fun i t' x' h1 h2 => hsub (i + 1) t' x' (by simpa using h1) (by simpa using h2)) _ _ vs (by simp [hl]) ?_ d2)
          intro i t' y y' h1 h2 h3
          exact hal (i + 1) t' y y' (by simpa using h1) (by simpa [List.getElem?_tail] using h2) (by simpa [List.getElem?_tail] using h3)
    cases ha with
    | tuple _ _ _ hl hal => exact this js ts (fun i t x h1 h2 => ⟨size_item (List.mem_of_getElem? h2), hF.child (.tuple ts js i t x h1 h2)⟩) _ _ vs hl hal h
    | other _ _ _ h1 _ => exact absurd rfl (h1 ts)
  | variant ts _ _ i t v h1 h2 h3 =>
    have hm := List.mem_of_getElem? h1
    have hf := hF.child (.variant ts j t hm)
    exact .variant ts j target' i t v h1 (fun k t' hk ht => fails_withFresh env f j t' (h2 k t' hk ht)) (iht t (size_alt hm) hf _ _ v (hf.1 t j .self) h3)
  | cls c ms _ vs h =>
    refine .cls c ms target' vs ?_
    have : ∀ (l : List Member), (∀ m ∈ l, m ∈ env.members c) → ∀ (targets targets' vs : List Val), targets.length = targets'.length →
        (∀ (i : Nat) (m : Member), l[i]? = some m → m.kind = .default → ∃ x, targets[i]? = some x ∧ targets'[i]? = some x) →
        (∀ (i : Nat) (m : Member) (x x' : Val), l[i]? = some m → m.kind ≠ .optional → targets[i]? = some x → targets'[i]? = some x' → Alike env m.ty x x') →
        DecodesMembers env ms l targets vs → DecodesMembers (env.withFresh f) ms l targets' vs := by
      intro l
      induction l with
      | nil => intro _ targets targets' vs _ _ _ hd; cases hd; exact .nil _ _
      | cons m l ih =>
        intro hsub targets targets' vs hl hdef hal hd
        have ih' := fun vs => ih (fun m hm => hsub m (by simp [hm])) targets.tail targets'.tail vs (by simp [hl])
          (fun i m hm hk => by
            obtain ⟨x, h1, h2⟩ := hdef (i + 1) m (by simpa using hm) hk
            exact ⟨x, by simpa [List.getElem?_tail] using h1, by simpa [List.getElem?_tail] using h2⟩)
          (fun i m y y' h1 h2 h3 h4 => hal (i + 1) m y y' (by simpa using h1) h2 (by simpa [List.getElem?_tail] using h3) (by simpa [List.getElem?_tail] using h4))
        have hm := hsub m (by simp)
        cases hd with
        | present _ _ _ _ i x v vs h1 h2 h3 h4 =>
          have hf := hF.child (.cls c ms m i x hm h1)
          exact .present _ m l targets' i x v vs h1 h2
            (ihj x (size_field (findMember_mem h1)) m.ty hf _ _ v (alike_head hl (fun y y' g1 g2 => hal 0 m y y' rfl h2 g1 g2) (hf.1 m.ty x .self)) h3) (ih' _ h4)
        | some _ _ _ _ i x v vs h1 h2 h3 h4 =>
          have hf := hF.child (.cls c ms m i x hm h1)
          exact .some _ m l targets' i x v vs h1 h2 (ihj x (size_field (findMember_mem h1)) m.ty hf _ _ v (hf.1 m.ty x .self) h3) (ih' _ h4)
        | none _ _ _ _ vs h1 h2 h3 => exact .none _ m l targets' vs h1 h2 (ih' _ h3)
        | keep _ _ _ _ vs h1 h2 h3 =>
          obtain ⟨x, g1, g2⟩ := hdef 0 m rfl h2
          have first : ∀ (l : List Val) (d : Val), l[0]? = some x → l.headD d = x := fun l d h => by
            cases l with
            | nil => cases h
            | cons y l => exact Option.some.inj h
          have e1 : targets.headD (env.fresh m.ty) = x := first _ _ g1
          have e2 : targets'.headD ((env.withFresh f).fresh m.ty) = x := first _ _ g2
          have := DecodesMembers.keep (env := env.withFresh f) ms m l targets' vs h1 h2 (ih' _ h3)
          rw [e2] at this
          rw [e1]
          exact this
    cases ha with
    | cls _ _ _ hl hdef hal => exact this (env.members c) (fun m h => h) _ _ vs hl hdef hal h
    | other _ _ _ _ h2 => exact absurd rfl (h2 c)
  | uptr t _ _ v h =>
    have hf := hF.child (.uptr t j)
    exact .uptr t j target' v (iht t (by simp +arith) hf _ _ v (hF.2 t j .self) h)

theorem AlikeFresh.symm {env : Env} {f : Ty → Val} {t : Ty} {j : Json} (h : AlikeFresh env f t j) : AlikeFresh (env.withFresh f) env.fresh t j :=
  ⟨fun t' j' hp => (h.1 t' j' (Part.withFresh (env := env.withFresh f) (f := env.fresh) hp)).symm.withFresh,
    fun t' j' hp => (h.2 t' j' (Part.withFresh (env := env.withFresh f) (f := env.fresh) hp)).withFresh⟩

theorem decodes_alike_iff (env : Env) (f : Ty → Val) (t : Ty) (j : Json) (hF : AlikeFresh env f t j) (target target' v : Val) (ha : Alike env t target target') :
    Decodes (env.withFresh f) t j target' v ↔ Decodes env t j target v :=
  ⟨fun h => decodes_alike (env.withFresh f) env.fresh j t hF.symm target' target v ha.symm.withFresh h, decodes_alike env f j t hF target target' v ha⟩

/-! ## The streaming parser -/

theorem fit_withFresh (env : Env) (f : Ty → Val) : fit (env.withFresh f) = fit env := by
  funext ts
  induction ts with
  | nil => rfl
  | cons t ts ih => funext vs; simp only [fit, ih]; rfl

theorem fitMembers_withFresh (env : Env) (f : Ty → Val) : fitMembers (env.withFresh f) = fitMembers env := by
  funext ms
  induction ms with
  | nil => rfl
  | cons t ts ih => funext vs; simp only [fitMembers, ih]; rfl

theorem openP_withFresh (env : Env) (f : Ty → Val) (target : Val) (n : Nat) : ∀ t, openP (env.withFresh f) t target n = openP env t target n := by
  intro t
  induction t, target, n using openP.induct env with
  | case11 t target n _ _ _ _ ih =>
    have h : (env.withFresh f).ctor = env.ctor := rfl
    simp only [openP, h, ih]
  | case12 t target n _ _ _ _ ih =>
    have h : (env.withFresh f).ctor = env.ctor := rfl
    simp only [openP, h, ih]
  | _ => simp only [openP, fit_withFresh, fitMembers_withFresh, Env.withFresh_members]

theorem leafParse_withFresh (env : Env) (f : Ty → Val) (p : Prim) (e : Event) : leafParse (env.withFresh f) p e = leafParse env p e := by
  cases p <;> rfl

theorem openStep_withFresh (env : Env) (f : Ty → Val) : openStep (env.withFresh f) = openStep env := by
  funext host fr rest fin n e
  simp only [openStep, leafParse_withFresh]

theorem emplaceP_withFresh (env : Env) (f : Ty → Val) : emplaceP (env.withFresh f) = emplaceP env := by
  funext host rest n c t target link outer k
  simp only [emplaceP, openP_withFresh]

theorem pstep_withFresh (env : Env) (f : Ty → Val) (host : Host) (s : PState) (e : Event) : pstep (env.withFresh f) host s e = pstep env host s e := by
  have h : (env.withFresh f).ctor = env.ctor := rfl
  have h' : (env.withFresh f).less = env.less := rfl
  have h2 : selectMember (env.withFresh f) = selectMember env := rfl
  simp only [pstep, leafParse_withFresh, openStep_withFresh, emplaceP_withFresh, h, h', h2, Env.withFresh_members]

theorem prun_withFresh (env : Env) (f : Ty → Val) (host : Host) : ∀ (es : List Event) (s : PState), prun (env.withFresh f) host s es = prun env host s es := by
  intro es
  induction es with
  | nil => intro s; rfl
  | cons e es ih =>
    intro s
    simp only [prun, pstep_withFresh, ih]

theorem parseBool_withFresh (env : Env) (f : Ty → Val) (host : Host) (t : Ty) (feed : Feed) (target : Val) (n : Nat) :
    parseBool (env.withFresh f) host t feed target n = parseBool env host t feed target n := by
  simp only [parseBool, prun_withFresh, start, openP_withFresh]

end Verif.Core
