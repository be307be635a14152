import Verif.Uninit
import Verif.Refuses

/-!
# Contents of variables that were never written, for documents with references

As `Uninit`, for what a document with references denotes (`Conveys`).
-/

namespace Verif.Core
open Verif.Numeric Verif.EnumConv

theorem Inner.withFresh {env : Env} {f : Ty → Val} {t t' : Ty} (h : Inner env t t') : Inner (env.withFresh f) t t' := by
  cases h with
  | vec t => exact .vec _
  | arr n t => exact .arr n _
  | set t => exact .set _
  | map o t => exact .map o _
  | dict t => exact .dict _
  | tuple ts t h => exact .tuple ts _ h
  | variant ts t h => exact .variant ts _ h
  | cls c m h => exact .cls c m h
  | uptr t => exact .uptr _
  | sptr t => exact .sptr _

theorem Within.withFresh {env : Env} {f : Ty → Val} {t t' : Ty} (h : Within env t t') : Within (env.withFresh f) t t' := by
  induction h with
  | self => exact .self
  | inner t1 t2 _ h ih => exact .inner t1 t2 ih h.withFresh

theorem Sharefree.withFresh {env : Env} (f : Ty → Val) {t : Ty} (h : Sharefree env t) : Sharefree (env.withFresh f) t := fun u hu =>
  h u (Within.withFresh (env := env.withFresh f) (f := env.fresh) hu)

theorem Traceless.withFresh {env : Env} (f : Ty → Val) {t : Ty} {j : Json} (h : Traceless env t j) : Traceless (env.withFresh f) t j := by
  rcases h with h | ⟨u, h1, h2, h3⟩
  · exact .inl (h.withFresh f)
  · exact .inr ⟨u, h1, h2.withFresh f, h3⟩

theorem ChildAt.withFresh {env : Env} {f : Ty → Val} {t t' : Ty} {j j' : Json} {loc loc' : Loc} (h : ChildAt env t j loc t' j' loc') :
    ChildAt (env.withFresh f) t j loc t' j' loc' := by
  cases h with
  | vec t js i x loc h => exact .vec _ js i _ loc h
  | arr n t js i x loc h => exact .arr n _ js i _ loc h
  | set t js i x loc h => exact .set _ js i _ loc h
  | dict t js i x loc h => exact .dict _ js i _ loc h
  | map o t ms i p loc h => exact .map o _ ms i p loc h
  | tuple ts js i t x loc h1 h2 => exact .tuple ts js i _ _ loc h1 h2
  | variant ts _ t loc h => exact .variant ts _ _ loc h
  | cls c ms m i x loc h1 h2 => exact .cls c ms m i _ loc h1 h2
  | uptr t _ loc => exact .uptr _ _ _
  | sptr t _ loc h => exact .sptr _ _ _ h

theorem Reach.withFresh {env : Env} {f : Ty → Val} {t t' : Ty} {j j' : Json} (h : Reach env t j t' j') : Reach (env.withFresh f) t j t' j' := by
  induction h with
  | self => exact .self
  | child t1 j1 loc1 t2 j2 loc2 _ hc ih => exact .child t1 j1 loc1 t2 j2 loc2 ih hc.withFresh

theorem AltsUnmasked.withFresh {env : Env} (f : Ty → Val) {t : Ty} {j : Json} (h : AltsUnmasked env t j) : AltsUnmasked (env.withFresh f) t j :=
  fun ts j' hp t' ht' htr =>
    Unmasked.withFresh (env := env.lower) f (h ts j' (Reach.withFresh (env := env.withFresh f) (f := env.fresh) hp) t' ht'
      (Traceless.withFresh (env := env.withFresh f) env.fresh htr))

/-- Other contents of local variables, alike for every type that is read; objects made by
`std::make_unique` and `std::make_shared` have their members. -/
def AlikeReach (env : Env) (f : Ty → Val) (t : Ty) (j : Json) : Prop :=
  (∀ t' j', Reach env t j t' j' → Alike env t' (env.fresh t') (f t')) ∧
  ∀ t' j', Reach env t j (.uptr t') j' ∨ Reach env t j (.sptr t') j' → Alike env t' (env.ctor t') (env.ctor t')

theorem AlikeReach.child {env : Env} {f : Ty → Val} {t t' : Ty} {j j' : Json} {loc loc' : Loc} (h : AlikeReach env f t j) (hc : ChildAt env t j loc t' j' loc') :
    AlikeReach env f t' j' :=
  ⟨fun t2 j2 hp => h.1 t2 j2 (Reach.of_child hc hp), fun t2 j2 hp => h.2 t2 j2 (hp.imp (Reach.of_child hc) (Reach.of_child hc))⟩

theorem conveys_alike (env : Env) (f : Ty → Val) (root : Json) : ∀ j t, AlikeReach env f t j → ∀ loc target target' st v st', Alike env t target target' →
    Conveys env root t loc j target st v st' → Conveys (env.withFresh f) root t loc j target' st v st' := by
  apply lexInd
  intro j t ihj iht hF loc target target' st v st' ha hd
  have all : ∀ (t' : Ty) (js : List Json), (∀ x ∈ js, sizeOf x < sizeOf j ∧ AlikeReach env f t' x) → ∀ k loc st vs st', ConveysAll env root t' k loc js st vs st' →
      ConveysAll (env.withFresh f) root t' k loc js st vs st' := by
    intro t' js
    induction js with
    | nil => intro _ k loc st vs st' h; cases h; exact .nil _ _ _ _
    | cons x js ih =>
      intro hs k loc st vs st' h
      cases h with
      | cons _ _ _ _ _ _ v st1 vs _ h1 h2 =>
        obtain ⟨hx, hf⟩ := hs x (by simp)
        exact .cons t' k loc x js st v st1 vs st' (ihj x hx t' hf _ _ _ _ v _ (hf.1 t' x .self) h1) (ih (fun y hy => hs y (by simp [hy])) _ _ _ vs _ h2)
  have sub : ∀ {t' : Ty} {js : List Json}, j = .arr js → (∀ (i : Nat) x, js[i]? = some x → AlikeReach env f t' x) → ∀ x ∈ js, sizeOf x < sizeOf j ∧ AlikeReach env f t' x := by
    rintro t' js rfl h x hx
    obtain ⟨i, hi⟩ := List.getElem?_of_mem hx
    exact ⟨size_item hx, h i x hi⟩
  cases hd with
  | prim p _ _ _ _ pv h => exact .prim p loc j target' st pv (h.withFresh f)
  | vec t _ js _ _ vs _ h =>
    exact .vec t loc js target' st vs st' (all t js (sub rfl fun i x hx => hF.child (.vec t js i x loc hx)) _ _ _ vs _ h)
  | arr n t _ js _ _ vs _ hl h =>
    exact .arr n t loc js target' st vs st' hl (all t js (sub rfl fun i x hx => hF.child (.arr n t js i x loc hx)) _ _ _ vs _ h)
  | set t _ js _ _ vs _ h =>
    exact .set t loc js target' st vs st' (all t js (sub rfl fun i x hx => hF.child (.set t js i x loc hx)) _ _ _ vs _ h)
  | dict t _ js _ _ vs _ h =>
    exact .dict t loc js target' st vs st' (all _ js (sub rfl fun i x hx => hF.child (.dict t js i x loc hx)) _ _ _ vs _ h)
  | map o t _ ms _ _ kvs _ h =>
    refine .map o t loc ms target' st kvs st' ?_
    have : ∀ (l : List (Str × Json)), (∀ p ∈ l, sizeOf p.2 < sizeOf (Json.obj ms) ∧ AlikeReach env f t p.2) → ∀ k loc st kvs st', ConveysEntries env root t k loc l st kvs st' →
        ConveysEntries (env.withFresh f) root t k loc l st kvs st' := by
      intro l
      induction l with
      | nil => intro _ k loc st kvs st' h; cases h; exact .nil _ _ _ _
      | cons p l ih =>
        intro hs k loc st kvs st' h
        cases h with
        | cons _ _ _ key x _ _ v st1 kvs _ h1 h2 =>
          obtain ⟨hx, hf⟩ := hs (key, x) (by simp)
          exact .cons t k loc key x l st v st1 kvs st' (ihj x hx t hf _ _ _ _ v _ (hf.1 t x .self) h1) (ih (fun y hy => hs y (by simp [hy])) _ _ _ kvs _ h2)
    refine this ms (fun p hp => ?_) _ _ _ kvs _ h
    obtain ⟨i, hi⟩ := List.getElem?_of_mem hp
    exact ⟨size_field (by exact hp), hF.child (.map o t ms i p loc hi)⟩
  | tuple ts _ js _ _ vs _ h =>
    refine .tuple ts loc js target' st vs st' ?_
    have : ∀ (l : List Json) (ts' : List Ty), (∀ (i : Nat) (t : Ty) (x : Json), ts'[i]? = some t → l[i]? = some x → sizeOf x < sizeOf (Json.arr js) ∧ AlikeReach env f t x) →
        ∀ (k : Nat) (targets targets' : List Val) (st : DState) (vs : List Val) (st' : DState), targets.length = targets'.length →
        (∀ (i : Nat) (t : Ty) (x x' : Val), ts'[i]? = some t → targets[i]? = some x → targets'[i]? = some x' → Alike env t x x') →
        ConveysEach env root ts' k loc l targets st vs st' → ConveysEach (env.withFresh f) root ts' k loc l targets' st vs st' := by
      intro l
      induction l with
      | nil => intro ts' _ k targets targets' st vs st' _ _ hd; cases hd; exact .nil _ _ _ _
      | cons x l ih =>
        intro ts' hsub k targets targets' st vs st' hl hal hd
        cases hd with
        | cons t ts' _ _ _ _ _ _ v st1 vs _ d1 d2 =>
          obtain ⟨hs, hf⟩ := hsub 0 t x rfl rfl
          refine .cons t ts' k loc x l targets' st v st1 vs st' (ihj x hs t hf _ _ _ _ v _ (alike_head hl (fun y y' h1 h2 => hal 0 t y y' rfl h1 h2) (hf.1 t x .self)) d1)
            (ih ts' (fun i t' x' h1 h2 => hsub (i + 1) t' x' (by simpa using h1) (by simpa using h2)) _ _ _ _ vs _ (by simp [hl]) ?_ d2)
          intro i t' y y' h1 h2 h3
          exact hal (i + 1) t' y y' (by simpa using h1) (by simpa [List.getElem?_tail] using h2) (by simpa [List.getElem?_tail] using h3)
    cases ha with
    | tuple _ _ _ hl hal => exact this js ts (fun i t x h1 h2 => ⟨size_item (List.mem_of_getElem? h2), hF.child (.tuple ts js i t x loc h1 h2)⟩) _ _ _ _ vs _ hl hal h
    | other _ _ _ h1 _ => exact absurd rfl (h1 ts)
  | variant ts _ _ _ _ i t v _ h1 h2 h3 =>
    have hm := List.mem_of_getElem? h1
    have hf := hF.child (.variant ts j t loc hm)
    exact .variant ts loc j target' st i t v st' h1
      (fun k t' hk ht => ⟨(h2 k t' hk ht).1.withFresh f, fails_withFresh env.lower f j t'.lower (h2 k t' hk ht).2⟩)
      (iht t (size_alt hm) hf _ _ _ _ v _ (hf.1 t j .self) h3)
  | cls c _ ms _ _ vs _ h =>
    refine .cls c loc ms target' st vs st' ?_
    have : ∀ (l : List Member), (∀ m ∈ l, m ∈ env.members c) → ∀ (targets targets' : List Val) (st : DState) (vs : List Val) (st' : DState), targets.length = targets'.length →
        (∀ (i : Nat) (m : Member), l[i]? = some m → m.kind = .default → ∃ x, targets[i]? = some x ∧ targets'[i]? = some x) →
        (∀ (i : Nat) (m : Member) (x x' : Val), l[i]? = some m → m.kind ≠ .optional → targets[i]? = some x → targets'[i]? = some x' → Alike env m.ty x x') →
        ConveysMembers env root loc ms l targets st vs st' → ConveysMembers (env.withFresh f) root loc ms l targets' st vs st' := by
      intro l
      induction l with
      | nil => intro _ targets targets' st vs st' _ _ _ hd; cases hd; exact .nil _ _ _ _
      | cons m l ih =>
        intro hsub targets targets' st vs st' hl hdef hal hd
        have ih' := fun st vs st' => ih (fun m hm => hsub m (by simp [hm])) targets.tail targets'.tail st vs st' (by simp [hl])
          (fun i m hm hk => by
            obtain ⟨x, h1, h2⟩ := hdef (i + 1) m (by simpa using hm) hk
            exact ⟨x, by simpa [List.getElem?_tail] using h1, by simpa [List.getElem?_tail] using h2⟩)
          (fun i m y y' h1 h2 h3 h4 => hal (i + 1) m y y' (by simpa using h1) h2 (by simpa [List.getElem?_tail] using h3) (by simpa [List.getElem?_tail] using h4))
        have hm := hsub m (by simp)
        cases hd with
        | present _ _ _ _ _ _ i x v st1 vs _ h1 h2 h3 h4 =>
          have hf := hF.child (.cls c ms m i x loc hm h1)
          exact .present _ _ m l targets' _ i x v st1 vs _ h1 h2
            (ihj x (size_field (findMember_mem h1)) m.ty hf _ _ _ _ v _ (alike_head hl (fun y y' g1 g2 => hal 0 m y y' rfl h2 g1 g2) (hf.1 m.ty x .self)) h3) (ih' _ _ _ h4)
        | some _ _ _ _ _ _ i x v st1 vs _ h1 h2 h3 h4 =>
          have hf := hF.child (.cls c ms m i x loc hm h1)
          exact .some _ _ m l targets' _ i x v st1 vs _ h1 h2 (ihj x (size_field (findMember_mem h1)) m.ty hf _ _ _ _ v _ (hf.1 m.ty x .self) h3) (ih' _ _ _ h4)
        | none _ _ _ _ _ _ vs _ h1 h2 h3 => exact .none _ _ m l targets' _ vs _ h1 h2 (ih' _ _ _ h3)
        | keep _ _ _ _ _ _ vs _ h1 h2 h3 =>
          obtain ⟨x, g1, g2⟩ := hdef 0 m rfl h2
          have first : ∀ (l : List Val) (d : Val), l[0]? = some x → l.headD d = x := fun l d h => by
            cases l with
            | nil => cases h
            | cons y l => exact Option.some.inj h
          have e1 : targets.headD (env.fresh m.ty) = x := first _ _ g1
          have e2 : targets'.headD ((env.withFresh f).fresh m.ty) = x := first _ _ g2
          have := ConveysMembers.keep (env := env.withFresh f) (root := root) loc ms m l targets' _ vs _ h1 h2 (ih' _ _ _ h3)
          rw [e2] at this
          rw [e1]
          exact this
    cases ha with
    | cls _ _ _ hl hdef hal => exact this (env.members c) (fun m h => h) _ _ _ vs _ hl hdef hal h
    | other _ _ _ _ h2 => exact absurd rfl (h2 c)
  | uptr t _ _ _ _ v _ h =>
    have hf := hF.child (.uptr t j loc)
    exact .uptr t loc j target' st v st' (iht t (by simp +arith) hf _ _ _ _ v _ (hF.2 t j (.inl .self)) h)
  | sptr t _ _ _ _ v st1 hr h =>
    have hf := hF.child (.sptr t j loc hr)
    exact .sptr t loc j target' st v st1 hr (iht t (by simp +arith) hf _ _ _ _ v _ (hF.2 t j (.inr .self)) h)
  | ref t _ _ _ _ p toks q a v h1 h2 h3 h4 => exact .ref t loc j target' st p toks q a v h1 h2 h3 h4

/-! ## Which documents denote something -/

theorem Chosen.withFresh {env : Env} (f : Ty → Val) {ts : List Ty} {j : Json} {i : Nat} {t : Ty} (h : Chosen env ts j i t) : Chosen (env.withFresh f) ts j i t :=
  ⟨h.1, fun k t' h1 h2 => fails_withFresh env.lower f j _ (h.2.1 k t' h1 h2), h.2.2.imp_right fun h h' => h ((fails_withFresh_iff env.lower f _ j).1 h')⟩

theorem Nth.withFresh {env : Env} (f : Ty → Val) {t t' : Ty} {j j' : Json} {loc loc' : Loc} {n : Nat} (h : Nth env t j loc n t' j' loc') :
    Nth (env.withFresh f) t j loc n t' j' loc' := by
  cases h with
  | vec t js _ x loc h => exact .vec _ js n _ loc h
  | arr k t js _ x loc h => exact .arr k _ js n _ loc h
  | set t js _ x loc h => exact .set _ js n _ loc h
  | dict t js _ x loc h => exact .dict _ js n _ loc h
  | map o t ms _ p loc h => exact .map o _ ms n p loc h
  | tuple ts js _ t x loc h1 h2 => exact .tuple ts js n _ _ loc h1 h2
  | variant ts _ i t loc h => exact .variant ts _ i _ _ (h.withFresh f)
  | cls c ms _ m i x loc h1 h2 => exact .cls c ms n m i _ loc h1 h2
  | uptr t _ loc => exact .uptr _ _ _
  | sptr t _ loc h => exact .sptr _ _ _ h

theorem Holds.withFresh {env : Env} (f : Ty → Val) {t u : Ty} {j : Json} {loc q : Loc} (h : Holds env t j loc q u) : Holds (env.withFresh f) t j loc q u := by
  induction h with
  | here u j loc h => exact .here u j loc h
  | inside t j loc n t' j' loc' q u h1 _ ih => exact .inside t j loc n t' j' loc' q u (h1.withFresh f) ih

theorem sooner_withFresh (env : Env) (f : Ty → Val) : Sooner (env.withFresh f) = Sooner env := by
  funext t j loc n q u
  refine propext ⟨fun ⟨k, t', j', loc', h1, h2, h3⟩ => ⟨k, t', j', loc', h1, ?_, ?_⟩, fun ⟨k, t', j', loc', h1, h2, h3⟩ => ⟨k, t', j', loc', h1, h2.withFresh f, h3.withFresh f⟩⟩
  · exact Nth.withFresh (env := env.withFresh f) env.fresh h2
  · exact Holds.withFresh (env := env.withFresh f) env.fresh h3

theorem Misfit.withFresh {env : Env} (f : Ty → Val) {t : Ty} {j : Json} (h : Misfit env t j) : Misfit (env.withFresh f) t j := by
  cases h with
  | prim p _ h => exact .prim p j fun pv hp => h pv hp.of_withFresh
  | array _ _ h1 h2 => exact .array t j h1 h2
  | object _ _ h1 h2 => exact .object t j h1 h2
  | arrLength n t js h => exact .arrLength n t js h
  | tupleLength ts js h => exact .tupleLength ts js h
  | missing c ms m h1 h2 h3 => exact .missing c ms m h1 h2 h3
  | noAlternative => exact .noAlternative j

theorem Misfits.withFresh {env : Env} (f : Ty → Val) {t : Ty} {j : Json} (h : Misfits env t j) : Misfits (env.withFresh f) t j := by
  induction h with
  | here t j h => exact .here t j (h.withFresh f)
  | component t j loc n t' j' loc' h1 _ ih => exact .component t j loc n t' j' loc' (h1.withFresh f) ih

theorem misfits_withFresh_iff (env : Env) (f : Ty → Val) (t : Ty) (j : Json) : Misfits (env.withFresh f) t j ↔ Misfits env t j :=
  ⟨fun h => Misfits.withFresh (env := env.withFresh f) env.fresh h, fun h => h.withFresh f⟩

theorem Dangles.withFresh {env : Env} (f : Ty → Val) {root : Json} {D : Loc → Ty → Prop} {t : Ty} {j : Json} {loc : Loc} (h : Dangles env root D t j loc) :
    Dangles (env.withFresh f) root D t j loc := by
  induction h with
  | component D t j loc n t' j' loc' h1 _ ih =>
    refine .component D t j loc n t' j' loc' (h1.withFresh f) ?_
    rw [sooner_withFresh]
    exact ih
  | reference D t j loc r h1 h2 => exact .reference D t j loc r h1 h2

theorem dangles_withFresh_iff (env : Env) (f : Ty → Val) (root : Json) (D : Loc → Ty → Prop) (t : Ty) (j : Json) (loc : Loc) :
    Dangles (env.withFresh f) root D t j loc ↔ Dangles env root D t j loc :=
  ⟨fun h => Dangles.withFresh (env := env.withFresh f) env.fresh h, fun h => h.withFresh f⟩

theorem brokenAt_withFresh_iff (env : Env) (f : Ty → Val) (root : Json) (D : Loc → Ty → Prop) (c : Nat) (fields : List (Str × Json)) (loc : Loc) (n : Nat) (m : Member) :
    BrokenAt (env.withFresh f) root D c fields loc n m ↔ BrokenAt env root D c fields loc n m := by
  simp only [BrokenAt, Breaks, misfits_withFresh_iff, dangles_withFresh_iff, sooner_withFresh]

theorem Masks.withFresh {env : Env} (f : Ty → Val) {root : Json} {D : Loc → Ty → Prop} {t : Ty} {j : Json} {loc : Loc} (h : Masks env root D t j loc) :
    Masks (env.withFresh f) root D t j loc := by
  induction h with
  | here D c fields loc n m h1 h2 h3 =>
    exact .here D c fields loc n m h1 ((brokenAt_withFresh_iff ..).2 h2) fun n m g1 g2 => h3 n m g1 ((brokenAt_withFresh_iff ..).1 g2)
  | component D t j loc n t' j' loc' h1 _ ih =>
    refine .component D t j loc n t' j' loc' (h1.withFresh f) ?_
    rw [sooner_withFresh]
    exact ih

theorem masks_withFresh_iff (env : Env) (f : Ty → Val) (root : Json) (D : Loc → Ty → Prop) (t : Ty) (j : Json) (loc : Loc) :
    Masks (env.withFresh f) root D t j loc ↔ Masks env root D t j loc :=
  ⟨fun h => Masks.withFresh (env := env.withFresh f) env.fresh h, fun h => h.withFresh f⟩

theorem LastCounts.withFresh {env : Env} (f : Ty → Val) {c : Nat} {fields : List (Str × Json)} (h : LastCounts env c fields) : LastCounts (env.withFresh f) c fields := by
  have e : ∀ m, BadHere (env.withFresh f) fields m ↔ BadHere env fields m := fun m => by simp only [BadHere, misfits_withFresh_iff]
  intro ⟨m, hm, hb⟩
  obtain ⟨pre, m', post, h1, h2, h3⟩ := h ⟨m, hm, (e m).1 hb⟩
  exact ⟨pre, m', post, h1, (e m').2 h2, h3⟩

theorem OrderlyAlts.withFresh {env : Env} (f : Ty → Val) {t : Ty} {j : Json} (h : OrderlyAlts env t j) : OrderlyAlts (env.withFresh f) t j :=
  fun ts j' h1 c fields h2 => (h ts j' (Reach.withFresh (env := env.withFresh f) (f := env.fresh) h1) c fields
    (Reach.withFresh (env := env.withFresh f) (f := env.fresh) h2)).withFresh f

theorem Tame.withFresh {env : Env} (f : Ty → Val) {t : Ty} {j : Json} (h : Tame env t j) : Tame (env.withFresh f) t j :=
  fun ts j' hp k t' hk ht => (h ts j' (Reach.withFresh (env := env.withFresh f) (f := env.fresh) hp) k t' hk ht).withFresh f

theorem Unnested.withFresh {env : Env} (f : Ty → Val) {t : Ty} (h : Unnested env t) : Unnested (env.withFresh f) t :=
  fun u hu => h u (Within.withFresh (env := env.withFresh f) (f := env.fresh) hu)

/-! ## Symmetry -/

theorem AlikeReach.symm {env : Env} {f : Ty → Val} {t : Ty} {j : Json} (h : AlikeReach env f t j) : AlikeReach (env.withFresh f) env.fresh t j :=
  ⟨fun t' j' hp => (h.1 t' j' (Reach.withFresh (env := env.withFresh f) (f := env.fresh) hp)).symm.withFresh,
   fun t' j' hp => (h.2 t' j' (hp.imp (Reach.withFresh (env := env.withFresh f) (f := env.fresh)) (Reach.withFresh (env := env.withFresh f) (f := env.fresh)))).withFresh⟩

theorem conveys_alike_iff (env : Env) (f : Ty → Val) (root : Json) (t : Ty) (j : Json) (hF : AlikeReach env f t j) (loc : Loc) (target target' : Val) (st : DState) (v : Val)
    (st' : DState) (ha : Alike env t target target') :
    Conveys (env.withFresh f) root t loc j target' st v st' ↔ Conveys env root t loc j target st v st' :=
  ⟨fun h => conveys_alike (env.withFresh f) env.fresh root j t hF.symm loc target' target st v st' ha.symm.withFresh h,
   conveys_alike env f root j t hF loc target target' st v st' ha⟩

end Verif.Core
