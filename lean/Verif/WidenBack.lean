import Verif.ReadMore
import Verif.Widen

/-!
# What is written denotes the value that was written

`Shows` (Render.lean) is what the serializer does. Its documents denote the value, for every target, and have all members
of kind `default` (`Entire`), so that they can be read by a program with other types (`Widen.lean`).
-/

namespace Verif.Core
open Verif.Numeric Verif.EnumConv

/-- The document denotes the value whatever the target, and has all default members. -/
def GivesBack (env : Env) (j : Json) (t : Ty) (v : Val) : Prop := (∀ target, Decodes env t j target v) ∧ Entire env t j

theorem Entire.of {env : Env} {t : Ty} {j : Json}
    (h1 : ∀ c fields, t = .cls c → j = .obj fields → ∀ m ∈ env.members c, m.kind = .default → findMember m.name fields ≠ none)
    (h2 : ∀ x, t = .prim (.flt .float) → j = .num x → x.getDouble.round .float = x.getDouble.round .double)
    (h3 : ∀ t' j', Used env t j t' j' → Entire env t' j') : Entire env t j := by
  refine ⟨fun c fields hp => ?_, fun x hp => ?_⟩
  · generalize ht : Ty.cls c = tc at hp
    generalize hj : Json.obj fields = jc at hp
    cases hp with
    | self =>
      subst ht hj
      exact h1 c fields rfl rfl
    | step _ _ t1 j1 _ _ hu hp =>
      subst ht hj
      exact (h3 t1 j1 hu).members c fields hp
  · generalize ht : Ty.prim (.flt .float) = tc at hp
    generalize hj : Json.num x = jc at hp
    cases hp with
    | self =>
      subst ht hj
      exact h2 x rfl rfl
    | step _ _ t1 j1 _ _ hu hp =>
      subst ht hj
      exact (h3 t1 j1 hu).floats x hp

/-- What is to be shown of a value. -/
def ShownBack (env : Env) (H : Heap) (v : Val) : Prop :=
  ∀ t pos j tr, Shows env v t pos j tr → HasTy env H v t → Readable env v t → t.unshared = true → Calm env j → GivesBack env j t v

theorem items_back (env : Env) (H : Heap) (vs : List Val) (hv : ∀ v ∈ vs, ShownBack env H v) : ∀ ts pos k js tr, ShowsItems env vs ts pos k js tr →
    HasTys env H vs ts → Readables env vs ts → (∀ t ∈ ts, t.unshared = true) → (∀ j ∈ js, Calm env j) →
    (∀ targets, DecodesEach env ts js targets vs) ∧ js.length = ts.length ∧ ∀ (i : Nat) t j, ts[i]? = some t → js[i]? = some j → Entire env t j := by
  induction vs with
  | nil =>
    intro ts pos k js tr h _ _ _ _
    cases h
    exact ⟨fun targets => .nil _, rfl, fun i t j h => by simp at h⟩
  | cons v vs ih =>
    intro ts pos k js tr h ht hr hu hc
    cases h with
    | @cons _ _ t ts _ _ j js tr1 tr2 h1 h2 =>
      obtain ⟨hb, hcomp⟩ := hv v (by simp) t _ j _ h1 ht.1 hr.1 (hu t (by simp)) (hc j (by simp))
      obtain ⟨h3, h4, h5⟩ := ih (fun w hw => hv w (by simp [hw])) ts _ _ js _ h2 ht.2 hr.2 (fun t ht => hu t (by simp [ht])) (fun j hj => hc j (by simp [hj]))
      refine ⟨fun targets => .cons _ _ _ _ _ _ _ (hb _) (h3 _), by simp [h4], fun i t' j' ht' hj' => ?_⟩
      cases i with
      | zero =>
        rw [List.getElem?_cons_zero] at ht' hj'
        cases ht'
        cases hj'
        exact hcomp
      | succ i =>
        rw [List.getElem?_cons_succ] at ht' hj'
        exact h5 i t' j' ht' hj'

theorem decodesEach_replicate {env : Env} {t : Ty} {n : Nat} {js : List Json} {vs : List Val} (h : DecodesEach env (List.replicate n t) js [] vs) :
    DecodesAll env t js vs := by
  induction n generalizing js vs with
  | zero =>
    cases h
    exact .nil _
  | succ n ih =>
    rw [List.replicate_succ] at h
    cases h with
    | cons _ _ j js _ v vs h1 h2 => exact .cons _ _ _ _ _ h1 (ih h2)

theorem same_back (env : Env) (H : Heap) (vs : List Val) (hv : ∀ v ∈ vs, ShownBack env H v) (t : Ty) (pos : List Nat) (n k : Nat) (js : List Json) (tr : List Occ)
    (h : ShowsItems env vs (List.replicate n t) pos k js tr) (hn : vs.length = n) (ht : AllTy env H vs t) (hr : ReadableAll env vs t) (hu : t.unshared = true)
    (hc : ∀ j ∈ js, Calm env j) : DecodesAll env t js vs ∧ js.length = n ∧ ∀ j ∈ js, Entire env t j := by
  subst hn
  obtain ⟨h1, h2, h3⟩ := items_back env H vs hv _ pos k js tr h (HasTys_replicate env H vs t ht) (Readables_replicate env vs t hr)
    (fun t' ht' => by rw [List.eq_of_mem_replicate ht']; exact hu) hc
  refine ⟨decodesEach_replicate (h1 []), by simpa using h2, fun j hj => ?_⟩
  obtain ⟨i, hi⟩ := List.mem_iff_getElem?.1 hj
  refine h3 i t j ?_ hi
  have : i < js.length := (List.getElem?_eq_some_iff.1 hi).1
  rw [h2] at this
  rw [List.getElem?_eq_getElem this, List.getElem_replicate]

theorem vals_back (env : Env) (H : Heap) (t : Ty) (hu : t.unshared = true) (kvs : List (Str × Val)) (hv : ∀ p ∈ kvs, ShownBack env H p.2) :
    ∀ pos k js tr, ShowsVals env kvs t pos k js tr → (∀ p ∈ kvs, HasTy env H p.2 t) → (∀ p ∈ kvs, 0 ∉ p.1 ∧ Readable env p.2 t) →
      (∀ p ∈ js, Calm env p.2) → DecodesEntries env t js kvs ∧ ∀ p ∈ js, Entire env t p.2 := by
  induction kvs with
  | nil =>
    intro pos k js tr h _ _ _
    cases h
    exact ⟨.nil _, by simp⟩
  | cons p kvs ih =>
    intro pos k js tr h ht hr hc
    cases h with
    | @cons key v _ _ _ _ j js tr1 tr2 h1 h2 =>
      obtain ⟨hb, hcomp⟩ := hv (key, v) (by simp) t _ j _ h1 (ht _ (by simp)) (hr _ (by simp)).2 hu (hc (key, j) (by simp))
      obtain ⟨h3, h4⟩ := ih (fun w hw => hv w (by simp [hw])) _ _ js _ h2 (fun p hp => ht p (by simp [hp])) (fun p hp => hr p (by simp [hp]))
        (fun p hp => hc p (by simp [hp]))
      refine ⟨?_, fun p hp => ?_⟩
      · have := DecodesEntries.cons t key j js v kvs (hb _) h3
        rwa [cstr_eq key (hr (key, v) (by simp)).1] at this
      · rcases List.mem_cons.1 hp with rfl | hp
        · exact hcomp
        · exact h4 p hp

theorem showsMembers_names {env : Env} {vs : List Val} {ms : List Member} {pos : List Nat} {k : Nat} {js : List (Str × Json)} {tr : List Occ}
    (h : ShowsMembers env vs ms pos k js tr) : ∀ n ∈ js.map (·.1), n ∈ ms.map (·.name) := by
  induction vs generalizing ms k js tr with
  | nil => cases h; simp
  | cons v vs ih =>
    cases h with
    | skip _ h => exact fun n hn => by rw [List.map_cons]; exact List.mem_cons_of_mem _ (ih h n hn)
    | engaged _ _ h | plain _ _ h =>
      intro n hn
      rw [List.map_cons] at hn ⊢
      rcases List.mem_cons.1 hn with rfl | hn
      · exact List.mem_cons_self
      · exact List.mem_cons_of_mem _ (ih h n hn)

theorem members_back (env : Env) (H : Heap) (hu : env.Unshared) (c : Nat) (F : List (Str × Json)) (vs : List Val)
    (hv : ∀ w, sizeOf w < 1 + sizeOf vs → ShownBack env H w) : ∀ ms pos k js tr pre, ShowsMembers env vs ms pos k js tr → F = pre ++ js →
    (∀ n ∈ pre.map (·.1), n ∉ ms.map (·.name)) → (ms.map (·.name)).Nodup → (∀ m ∈ ms, m ∈ env.members c) →
    MembersTy env H vs ms → ReadableMembers env vs ms → (∀ p ∈ js, Calm env p.2) →
    (∀ targets, DecodesMembers env F ms targets vs) ∧
    ∀ m ∈ ms, (findMember m.name F = none → m.kind = .optional) ∧ ∀ i x, findMember m.name F = some (i, x) → Entire env m.ty x := by
  induction vs with
  | nil =>
    intro ms pos k js tr pre h _ _ _ _ _ _ _
    cases h
    exact ⟨fun targets => .nil _ _, by simp⟩
  | cons v vs ih =>
    intro ms pos k js tr pre h hF hpre hnd hms ht hr hc
    have ih := ih fun w hw => hv w (by simp only [List.cons.sizeOf_spec]; omega)
    cases h with
    | @skip _ m ms _ _ js tr hk h =>
      rw [MembersTy.eq_def] at ht
      rw [ReadableMembers.eq_def] at hr
      rw [List.map_cons, List.nodup_cons] at hnd
      have hf : findMember m.name F = none := by
        refine findMember_none _ _ ?_
        rw [hF, List.map_append, List.mem_append]
        rintro (hn | hn)
        · exact hpre _ hn (by simp)
        · exact hnd.1 (showsMembers_names h _ hn)
      obtain ⟨h1, h2⟩ := ih ms _ _ js tr pre h hF (fun n hn hn' => hpre n hn (by rw [List.map_cons]; exact List.mem_cons_of_mem _ hn')) hnd.2
        (fun m' hm' => hms m' (by simp [hm'])) ht.2 hr.2 hc
      refine ⟨fun targets => .none _ _ _ _ _ hf hk (h1 _), fun m' hm' => ?_⟩
      rcases List.mem_cons.1 hm' with rfl | hm'
      · exact ⟨fun _ => hk, fun i x hx => by rw [hf] at hx; cases hx⟩
      · exact h2 m' hm'
    | @engaged w _ m ms _ _ j js tr1 tr2 hk hs h =>
      rw [MembersTy.eq_def] at ht
      rw [ReadableMembers.eq_def] at hr
      rw [List.map_cons, List.nodup_cons] at hnd
      have hf : findMember m.name F = some (pre.length, j) := by
        rw [hF]
        exact findMember_append _ _ _ _ fun hn => hpre _ hn (by simp)
      obtain ⟨hb, hcomp⟩ := hv w (by simp only [List.cons.sizeOf_spec, Val.present.sizeOf_spec]; omega) m.ty _ j _ hs
        (by simpa only [hk] using ht.1) hr.1 (hu c m (hms m (by simp))) (hc (m.name, j) (by simp))
      obtain ⟨h1, h2⟩ := ih ms _ _ js _ (pre ++ [(m.name, j)]) h (by rw [hF, List.append_assoc]; rfl)
        (fun n hn hn' => by
          rw [List.map_append, List.mem_append] at hn
          rcases hn with hn | hn
          · exact hpre n hn (by rw [List.map_cons]; exact List.mem_cons_of_mem _ hn')
          · simp only [List.map_cons, List.map_nil, List.mem_singleton] at hn
            exact hnd.1 (hn ▸ hn')) hnd.2
        (fun m' hm' => hms m' (by simp [hm'])) ht.2 hr.2 (fun p hp => hc p (by simp [hp]))
      refine ⟨fun targets => .some _ _ _ _ _ _ _ _ hf hk (hb _) (h1 _), fun m' hm' => ?_⟩
      rcases List.mem_cons.1 hm' with rfl | hm'
      · exact ⟨fun _ => hk, fun i x hx => by rw [hf] at hx; cases hx; exact hcomp⟩
      · exact h2 m' hm'
    | @plain _ _ m ms _ _ j js tr1 tr2 hk hs h =>
      rw [MembersTy.eq_def] at ht
      rw [ReadableMembers.eq_def] at hr
      rw [List.map_cons, List.nodup_cons] at hnd
      have hf : findMember m.name F = some (pre.length, j) := by
        rw [hF]
        exact findMember_append _ _ _ _ fun hn => hpre _ hn (by simp)
      have htv : HasTy env H v m.ty := by
        have := ht.1
        cases hkk : m.kind with
        | optional => exact absurd hkk hk
        | required => simpa only [hkk] using this
        | default => simpa only [hkk] using this
      have hrv : Readable env v m.ty := by
        have := hr.1
        cases v with
        | absent => simp [HasTy] at htv
        | present w => simp [HasTy] at htv
        | _ => exact this
      obtain ⟨hb, hcomp⟩ := hv v (by simp only [List.cons.sizeOf_spec]; omega) m.ty _ j _ hs htv hrv (hu c m (hms m (by simp))) (hc (m.name, j) (by simp))
      obtain ⟨h1, h2⟩ := ih ms _ _ js _ (pre ++ [(m.name, j)]) h (by rw [hF, List.append_assoc]; rfl)
        (fun n hn hn' => by
          rw [List.map_append, List.mem_append] at hn
          rcases hn with hn | hn
          · exact hpre n hn (by rw [List.map_cons]; exact List.mem_cons_of_mem _ hn')
          · simp only [List.map_cons, List.map_nil, List.mem_singleton] at hn
            exact hnd.1 (hn ▸ hn')) hnd.2
        (fun m' hm' => hms m' (by simp [hm'])) ht.2 hr.2 (fun p hp => hc p (by simp [hp]))
      refine ⟨fun targets => .present _ _ _ _ _ _ _ _ hf hk (hb _) (h1 _), fun m' hm' => ?_⟩
      rcases List.mem_cons.1 hm' with rfl | hm'
      · exact ⟨fun hn => (by rw [hf] at hn; cases hn), fun i x hx => by rw [hf] at hx; cases hx; exact hcomp⟩
      · exact h2 m' hm'

/-- What the reader refuses does not conform. -/
theorem Rejects.fails {env : Env} (hu : env.Unshared) {t : Ty} {j : Json} (h : Rejects env t j) (ht : t.unshared = true) (hc : Calm env j) : Fails env t j := by
  refine Classical.byContradiction fun hn => ?_
  obtain ⟨w, hw⟩ := accepts env hu j t ht hc hn false (env.fresh t) []
  obtain ⟨w', hw'⟩ := h j [] [] ⟨[], 0⟩
  rw [free env hu j t ht, hw] at hw'
  cases hw'

/-- What is written denotes the value that was written. -/
theorem shown_back (env : Env) (hu : env.Unshared) (hclk : 0 < env.clk) (hdist : env.DistinctNames) (H : Heap) : ∀ v, ShownBack env H v := by
  apply Val.strong
  intro v ih t pos j tr hs ht hr hun hc
  cases hs with
  | @prim p k _ _ h =>
    refine ⟨fun target => .prim _ _ _ _ ((desPrim_ok env k j p).1 (leaf_back env hclk k p j ht hr h)), .of (fun c fields h => by cases h) (fun x hk hx => ?_) fun t' j' hu => ?_⟩
    · cases hk
      subst hx
      cases p with
      | flt f =>
        have hf : f.Fits .float := ht
        rw [serPrim] at h
        split at h
        · cases h
          show f.round .float = f.round .double
          rw [round_fits _ _ hf, round_fits _ _ (fits_double_of_float f hf)]
        · cases h
      | _ => cases h
    · cases hu with
      | child _ _ _ _ _ h => cases h
  | @vec vs t _ js _ h =>
    obtain ⟨h1, -, h2⟩ := same_back env H vs (fun w hw => ih w (by have := mem_size hw; simp; omega)) t pos _ 0 js tr h rfl ht hr hun ((CalmAll_iff env js).1 hc)
    refine ⟨fun target => .vec _ _ _ _ h1, .of (fun c fields h => by cases h) (fun x h => by cases h) fun t' j' hu => ?_⟩
    cases hu with
    | child _ _ _ _ _ h => cases h with | vec _ _ _ hm => exact h2 _ hm
  | @arr vs n t _ js _ h =>
    obtain ⟨h1, hl, h2⟩ := same_back env H vs (fun w hw => ih w (by have := mem_size hw; simp; omega)) t pos n 0 js tr h ht.1 ht.2 hr hun ((CalmAll_iff env js).1 hc)
    refine ⟨fun target => .arr _ _ _ _ _ hl h1, .of (fun c fields h => by cases h) (fun x h => by cases h) fun t' j' hu => ?_⟩
    cases hu with
    | child _ _ _ _ _ h => cases h with | arr _ _ _ _ hm => exact h2 _ hm
  | @tuple vs ts _ js _ h =>
    obtain ⟨h1, -, h2⟩ := items_back env H vs (fun w hw => ih w (by have := mem_size hw; simp; omega)) ts pos 0 js tr h ht hr ((Ty.unshareds_iff ts).1 hun) ((CalmAll_iff env js).1 hc)
    refine ⟨fun target => .tuple _ _ _ _ (h1 _), .of (fun c fields h => by cases h) (fun x h => by cases h) fun t' j' hu => ?_⟩
    cases hu with
    | child _ _ _ _ _ h => cases h with | tuple _ _ i _ _ ht hj => exact h2 i _ _ ht hj
  | @set vs t _ js _ h =>
    obtain ⟨h1, -, h2⟩ := same_back env H vs (fun w hw => ih w (by have := mem_size hw; simp; omega)) t pos _ 0 js tr h rfl ht.1 hr.2 hun ((CalmAll_iff env js).1 hc)
    refine ⟨fun target => ?_, .of (fun c fields h => by cases h) (fun x h => by cases h) fun t' j' hu => ?_⟩
    · have := Decodes.set (env := env) t js target vs h1
      rwa [show setOf env.less vs = vs from insertAll env.less vs [] ht.2 (by simp)] at this
    · cases hu with
      | child _ _ _ _ _ h => cases h with | set _ _ _ hm => exact h2 _ hm
  | @map kvs kvs' o t _ js _ hp _ h =>
    have ht1 := (ValsTy_iff env H kvs t).1 ht.1
    have hr1 := (ReadableVals_iff env kvs t).1 hr
    obtain ⟨h1, h2⟩ := vals_back env H t hun kvs' (fun p hp' => ih p.2 (by have := mem_size_kv (hp.mem_iff.1 hp'); simp; omega)) pos 0 js tr h
      (fun p hp' => ht1 p (hp.mem_iff.1 hp')) (fun p hp' => hr1 p (hp.mem_iff.1 hp')) ((CalmFields_iff env js).1 hc)
    refine ⟨fun target => ?_, .of (fun c fields h => by cases h) (fun x h => by cases h) fun t' j' hu => ?_⟩
    · have := Decodes.map (env := env) o t js target kvs' h1
      rwa [show mapOf kvs' = kvs from rebuild kvs' kvs hp ((keysAsc_iff kvs).1 ht.2) ht.2.nodup] at this
    · cases hu with
      | child _ _ _ _ _ h => cases h with | map _ _ _ _ hm => exact h2 _ hm
  | dict h => exact hr.elim
  | @alt i v ts t _ _ _ hi h =>
    obtain ⟨t1, hi1, hr1, hrej⟩ := hr
    obtain ⟨t2, hi2, ht2⟩ := ht
    rw [hi] at hi1 hi2
    cases hi1
    cases hi2
    have huns := (Ty.unshareds_iff ts).1 hun
    obtain ⟨h1, h2⟩ := ih v (by simp) t pos j tr h ht2 hr1 (huns t (List.mem_of_getElem? hi)) hc
    have hbefore : ∀ k t', k < i → ts[k]? = some t' → Fails env t' j := fun k t' hk hk' =>
      (hrej k t' hk hk' pos j tr h).fails hu (huns t' (List.mem_of_getElem? hk')) hc
    refine ⟨fun target => .variant _ _ _ i t v hi hbefore (h1 _), .of (fun c fields h => by cases h) (fun x h => by cases h) fun t' j' hu => ?_⟩
    cases hu with
    | child _ _ _ _ hne h => exact absurd rfl (hne ts)
    | variant _ _ i' t' v' hi' hb' hd' =>
      have he : i' = i := by
        rcases Nat.lt_trichotomy i' i with hlt | rfl | hlt
        · exact absurd hd' (exclusive env j t' (hbefore i' t' hlt hi') _ _)
        · rfl
        · exact absurd (h1 (env.fresh t)) (exclusive env j t (hb' i t hlt hi) _ _)
      subst he
      rw [hi] at hi'
      cases hi'
      exact h2
  | @cls vs c _ js _ h =>
    obtain ⟨h1, h2⟩ := members_back env H hu c js vs (fun w hw => ih w (by simp only [Val.obj.sizeOf_spec]; omega)) (env.members c) pos 0 js tr [] h rfl (by simp) (hdist c)
      (fun m hm => hm) ht hr ((CalmFields_iff env js).1 hc)
    refine ⟨fun target => .cls _ _ _ _ (h1 _), .of (fun c' fields hcc hj m hm hk hn => ?_) (fun x h => by cases h) fun t' j' hu => ?_⟩
    · cases hcc
      cases hj
      have := (h2 m hm).1 hn
      rw [hk] at this
      cases this
    · cases hu with
      | child _ _ _ _ _ h => cases h with | cls _ _ m i _ hm hf => exact (h2 m hm).2 i _ hf
  | @uptr v t _ _ _ h =>
    obtain ⟨h1, h2⟩ := ih v (by simp) t pos j tr h ht hr hun hc
    refine ⟨fun target => .uptr _ _ _ _ (h1 _), .of (fun c fields h => by cases h) (fun x h => by cases h) fun t' j' hu => ?_⟩
    cases hu with
    | child _ _ _ _ _ h => cases h with | uptr => exact h2
  | full h => simp [Ty.unshared] at hun
  | ref => simp [Ty.unshared] at hun

end Verif.Core
