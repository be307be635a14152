import Verif.SchemaGrow
import Verif.SchemaSame
import Verif.FirstBad

/-!
# Alternatives of variants in another order (C122)

`Shuffled t t'`: `t'` is `t` with the alternatives of `std::variant` types put in another order, at any depth (deserialize_variant.hpp:16-42 tries them
in the order of the type). Whether a document is refused (`Refused`), what its first failure
is (`FirstBad`), and whether it meets the type (`Meets`), is the same for both.
-/

namespace Verif.Shuffle
open Verif.Core

/-- `t'` is `t` with alternatives of variants in another order: alternative `i` of the one is alternative `f i` of the other. -/
inductive Shuffled : Ty → Ty → Prop
  | prim (p : Prim) : Shuffled (.prim p) (.prim p)
  | vec (t t' : Ty) : Shuffled t t' → Shuffled (.vec t) (.vec t')
  | arr (n : Nat) (t t' : Ty) : Shuffled t t' → Shuffled (.arr n t) (.arr n t')
  | set (t t' : Ty) : Shuffled t t' → Shuffled (.set t) (.set t')
  | map (o : Bool) (t t' : Ty) : Shuffled t t' → Shuffled (.map o t) (.map o t')
  | dict (t t' : Ty) : Shuffled t t' → Shuffled (.dict t) (.dict t')
  | tuple (ts ts' : List Ty) : ts.length = ts'.length → (∀ (i : Nat) (t t' : Ty), ts[i]? = some t → ts'[i]? = some t' → Shuffled t t') →
      Shuffled (.tuple ts) (.tuple ts')
  | variant (ts ts' : List Ty) (f g : Nat → Nat) : ts.length = ts'.length → (∀ i, i < ts.length → f i < ts.length ∧ g (f i) = i) →
      (∀ k, k < ts.length → g k < ts.length ∧ f (g k) = k) → (∀ (i : Nat) (t t' : Ty), ts[i]? = some t → ts'[f i]? = some t' → Shuffled t t') →
      Shuffled (.variant ts) (.variant ts')
  | cls (c : Nat) : Shuffled (.cls c) (.cls c)
  | uptr (t t' : Ty) : Shuffled t t' → Shuffled (.uptr t) (.uptr t')
  | sptr (t t' : Ty) : Shuffled t t' → Shuffled (.sptr t) (.sptr t')

/-- The members of all classes are the same up to the order of the alternatives in their types. -/
def ShuffledClasses (env env' : Env) : Prop :=
  ∀ c, (env.members c).length = (env'.members c).length ∧
    ∀ (k : Nat) (m m' : Member), (env.members c)[k]? = some m → (env'.members c)[k]? = some m' → m.name = m'.name ∧ m.kind = m'.kind ∧ Shuffled m.ty m'.ty

theorem Shuffled.symm {t t' : Ty} (h : Shuffled t t') : Shuffled t' t := by
  induction h with
  | prim p => exact .prim p
  | vec t t' _ ih => exact .vec _ _ ih
  | arr n t t' _ ih => exact .arr n _ _ ih
  | set t t' _ ih => exact .set _ _ ih
  | map o t t' _ ih => exact .map o _ _ ih
  | dict t t' _ ih => exact .dict _ _ ih
  | tuple ts ts' hl _ ih => exact .tuple _ _ hl.symm fun i t t' h h' => ih i t' t h' h
  | variant ts ts' f g hl hf hg _ ih =>
    refine .variant _ _ g f hl.symm (fun i hi => by rw [← hl] at hi ⊢; exact hg i hi) (fun i hi => by rw [← hl] at hi ⊢; exact hf i hi) fun i t t' h h' => ?_
    have hi : i < ts.length := by rw [hl]; exact (List.getElem?_eq_some_iff.1 h).1
    exact ih (g i) t' t h' (by rw [(hg i hi).2]; exact h)
  | cls c => exact .cls c
  | uptr t t' _ ih => exact .uptr _ _ ih
  | sptr t t' _ ih => exact .sptr _ _ ih

theorem ShuffledClasses.symm {env env' : Env} (h : ShuffledClasses env env') : ShuffledClasses env' env := fun c =>
  ⟨(h c).1.symm, fun k m m' hm hm' => by
    obtain ⟨h1, h2, h3⟩ := (h c).2 k m' m hm' hm
    exact ⟨h1.symm, h2.symm, h3.symm⟩⟩

theorem Shuffled.lower {t t' : Ty} (h : Shuffled t t') : Shuffled t.lower t'.lower := by
  induction h with
  | prim p => exact .prim p
  | vec t t' _ ih => exact .vec _ _ ih
  | arr n t t' _ ih => exact .arr n _ _ ih
  | set t t' _ ih => exact .set _ _ ih
  | map o t t' _ ih => exact .map o _ _ ih
  | dict t t' _ ih => exact .dict _ _ ih
  | tuple ts ts' hl _ ih =>
    simp only [Ty.lower, lowers_map]
    refine .tuple _ _ (by simpa using hl) fun i t t' h h' => ?_
    rw [List.getElem?_map, Option.map_eq_some_iff] at h h'
    obtain ⟨a, ha, rfl⟩ := h
    obtain ⟨b, hb, rfl⟩ := h'
    exact ih i a b ha hb
  | variant ts ts' f g hl hf hg _ ih =>
    simp only [Ty.lower, lowers_map]
    refine .variant _ _ f g (by simpa using hl) (by simpa using hf) (by simpa using hg) fun i t t' h h' => ?_
    rw [List.getElem?_map, Option.map_eq_some_iff] at h h'
    obtain ⟨a, ha, rfl⟩ := h
    obtain ⟨b, hb, rfl⟩ := h'
    exact ih i a b ha hb
  | cls c => exact .cls c
  | uptr t t' _ ih => exact .uptr _ _ ih
  | sptr t t' _ ih => exact .uptr _ _ ih

theorem ShuffledClasses.lower {env env' : Env} (h : ShuffledClasses env env') : ShuffledClasses env.lower env'.lower := fun c => by
  simp only [Env.lower_members, List.length_map, List.getElem?_map, Option.map_eq_some_iff]
  refine ⟨(h c).1, ?_⟩
  rintro k _ _ ⟨m, hm, rfl⟩ ⟨m', hm', rfl⟩
  obtain ⟨h1, h2, h3⟩ := (h c).2 k m m' hm hm'
  exact ⟨h1, h2, h3.lower⟩

theorem leaf_transfer {env env' : Env} (hclk : env.clk = env'.clk) {p : Prim} {j : Json} {pv : PVal} (h : LeafReads env' p j pv) : LeafReads env p j pv := by
  cases h with
  | null => exact .null
  | bool b => exact .bool b
  | int t v h => exact .int t v h
  | flt t n => exact .flt t n
  | str s => exact .str s
  | bytes s bs h => exact .bytes s bs h
  | time s t h => exact .time s t (by rw [hclk]; exact h)
  | date s y m d h => exact .date s y m d (by rw [hclk]; exact h)
  | enumInt t v h => exact .enumInt t v h
  | enumStr table s v h => exact .enumStr table s v h

theorem member_at {env env' : Env} (hc : ShuffledClasses env env') {c : Nat} {m : Member} (hm : m ∈ env.members c) :
    ∃ m', m' ∈ env'.members c ∧ m.name = m'.name ∧ m.kind = m'.kind ∧ Shuffled m.ty m'.ty := by
  obtain ⟨k, hk, rfl⟩ := List.mem_iff_getElem.1 hm
  have hk' : k < (env'.members c).length := by rw [← (hc c).1]; exact hk
  exact ⟨_, List.getElem_mem hk', (hc c).2 k _ _ (List.getElem?_eq_getElem hk) (List.getElem?_eq_getElem hk')⟩

theorem members_split {env env' : Env} (hc : ShuffledClasses env env') {c : Nat} {fields : List (Str × Json)} {pre post : List Member} {m : Member}
    (hm : env.members c = pre ++ m :: post) (hpost : ∀ x ∈ post, Irrelevant fields x) :
    ∃ pre' m' post', env'.members c = pre' ++ m' :: post' ∧ (∀ x ∈ post', Irrelevant fields x) ∧ m.name = m'.name ∧ m.kind = m'.kind ∧
      Shuffled m.ty m'.ty := by
  obtain ⟨hl, hp⟩ := hc c
  have hlen : pre.length < (env'.members c).length := by rw [← hl, hm]; simp
  refine ⟨(env'.members c).take pre.length, (env'.members c)[pre.length], (env'.members c).drop (pre.length + 1), ?_, ?_,
    hp pre.length m _ (by rw [hm]; simp) (List.getElem?_eq_getElem hlen)⟩
  · rw [List.getElem_cons_drop, List.take_append_drop]
  · intro x hx
    obtain ⟨k, hk, rfl⟩ := List.mem_iff_getElem.1 hx
    rw [List.length_drop] at hk
    have hk' : pre.length + 1 + k < (env'.members c).length := by omega
    have hk2 : pre.length + 1 + k < (env.members c).length := by omega
    obtain ⟨e1, e2, -⟩ := hp (pre.length + 1 + k) _ _ (List.getElem?_eq_getElem hk2) (List.getElem?_eq_getElem hk')
    have hin : (env.members c)[pre.length + 1 + k] ∈ post := by
      have : (env.members c)[pre.length + 1 + k]? = post[k]? := by
        rw [hm, List.getElem?_append_right (by omega), show pre.length + 1 + k - pre.length = k + 1 by omega, List.getElem?_cons_succ]
      rw [List.getElem?_eq_getElem hk2] at this
      exact List.mem_of_getElem? this.symm
    rw [List.getElem_drop]
    have := hpost _ hin
    rw [Irrelevant, ← e1, ← e2]
    exact this

/-- A document that is refused for a type is refused for the type with its alternatives in another order. -/
theorem refused_shuffled {env env' : Env} (hclk : env.clk = env'.clk) (hc : ShuffledClasses env env') {exc : Bool} {t : Ty} {j : Json}
    (hr : Refused env exc t j) : ∀ t', Shuffled t t' → Refused env' exc t' j := by
  induction hr with
  | prim exc p j hn => intro t' h; cases h; exact .prim exc p j fun pv h => hn pv (leaf_transfer hclk h)
  | array exc t j hw hj => intro t' h; exact .array exc _ j (by cases h <;> first | exact hw | cases hw) hj
  | object exc t j hw hj => intro t' h; exact .object exc _ j (by cases h <;> first | exact hw | cases hw) hj
  | vec exc t js j hj _ ih => intro t' h; cases h with | vec _ _ h => exact .vec exc _ js j hj (ih _ h)
  | arr exc n t js j hj _ ih => intro t' h; cases h with | arr _ _ _ h => exact .arr exc n _ js j hj (ih _ h)
  | arrLength exc n t js hl => intro t' h; cases h with | arr _ _ _ h => exact .arrLength exc n _ js hl
  | set exc t js j hj _ ih => intro t' h; cases h with | set _ _ h => exact .set exc _ js j hj (ih _ h)
  | map exc o t ms p hp _ ih => intro t' h; cases h with | map _ _ _ h => exact .map exc o _ ms p hp (ih _ h)
  | dict exc t js j hj _ ih =>
    intro t' h
    cases h with
    | dict _ t1 h =>
      refine .dict exc _ js j hj (ih _ (.tuple _ _ rfl fun i a b ha hb => ?_))
      match i with
      | 0 => cases ha; cases hb; exact .prim _
      | 1 => cases ha; cases hb; exact h
      | _ + 2 => cases ha
  | tuple exc ts js i t j hi hji _ ih =>
    intro t' h
    cases h with
    | tuple _ ts' hl h =>
      have hlt : i < ts'.length := by rw [← hl]; exact (List.getElem?_eq_some_iff.1 hi).1
      exact .tuple exc _ js i ts'[i] j (List.getElem?_eq_getElem hlt) hji (ih _ (h i t _ hi (List.getElem?_eq_getElem hlt)))
  | tupleLength exc ts js hl => intro t' h; cases h with | tuple _ ts' hl' h => exact .tupleLength exc _ js (by rw [← hl']; exact hl)
  | variant exc ts j _ ih =>
    intro t' h
    cases h with
    | variant _ ts' f g hl hf hg h =>
      refine .variant exc _ j fun x hx => ?_
      obtain ⟨k, hk, rfl⟩ := List.mem_iff_getElem.1 hx
      rw [← hl] at hk
      obtain ⟨h1, h2⟩ := hg k hk
      exact ih ts[g k] (List.getElem_mem h1) _ (h (g k) _ _ (List.getElem?_eq_getElem h1) (by rw [h2]; exact List.getElem?_eq_getElem (by omega)))
  | member c ms m i j hm hfm _ ih =>
    intro t' h
    cases h
    obtain ⟨m', h1, h2, -, h4⟩ := member_at hc hm
    exact .member c ms m' i j h1 (by rw [← h2]; exact hfm) (ih _ h4)
  | missing c ms m hm hfm hk =>
    intro t' h
    cases h
    obtain ⟨m', h1, h2, h3, -⟩ := member_at hc hm
    exact .missing c ms m' h1 (by rw [← h2]; exact hfm) (by rw [← h3]; exact hk)
  | last c ms pre m post i j hm hpost hfm _ ih =>
    intro t' h
    cases h
    obtain ⟨pre', m', post', h1, h2, h3, -, h5⟩ := members_split hc hm hpost
    exact .last c ms pre' m' post' i j h1 h2 (by rw [← h3]; exact hfm) (ih _ h5)
  | lastMissing c ms pre m post hm hpost hfm hk =>
    intro t' h
    cases h
    obtain ⟨pre', m', post', h1, h2, h3, h4, -⟩ := members_split hc hm hpost
    exact .lastMissing c ms pre' m' post' h1 h2 (by rw [← h3]; exact hfm) (by rw [← h4]; exact hk)
  | uptr exc t j _ ih => intro t' h; cases h with | uptr _ _ h => exact .uptr exc _ j (ih _ h)

theorem refused_shuffled_iff {env env' : Env} (hclk : env.clk = env'.clk) (hc : ShuffledClasses env env') (exc : Bool) {t t' : Ty} (h : Shuffled t t') (j : Json) :
    Refused env exc t j ↔ Refused env' exc t' j :=
  ⟨fun hr => refused_shuffled hclk hc hr _ h, fun hr => refused_shuffled hclk.symm hc.symm hr _ h.symm⟩

theorem reason_transfer {env env' : Env} (hclk : env.clk = env'.clk) {p : Prim} {j : Json} {e : Err} (h : LeafReason env p j e) : LeafReason env' p j e := by
  cases h with
  | null _ h => exact .null _ h
  | bool _ h => exact .bool _ h
  | int t _ h => exact .int t _ h
  | intRange t v h h' => exact .intRange t v h h'
  | enumInt t _ h => exact .enumInt t _ h
  | enumIntRange t v h h' => exact .enumIntRange t v h h'
  | flt t _ h => exact .flt t _ h
  | string _ _ h h' => exact .string _ _ h h'
  | bytes s h => exact .bytes s h
  | time s h => exact .time s (by rw [← hclk]; exact h)
  | date s h => exact .date s (by rw [← hclk]; exact h)
  | enumStr table s h => exact .enumStr table s h

theorem members_front {env env' : Env} (hc : ShuffledClasses env env') {c : Nat} {pre post : List Member} {m : Member} (hm : env.members c = pre ++ m :: post) :
    ∃ pre' m' post', env'.members c = pre' ++ m' :: post' ∧ (∀ x' ∈ pre', ∃ x ∈ pre, x.name = x'.name ∧ x.kind = x'.kind ∧ Shuffled x.ty x'.ty) ∧
      m.name = m'.name ∧ m.kind = m'.kind ∧ Shuffled m.ty m'.ty := by
  obtain ⟨hl, hp⟩ := hc c
  have hlen : pre.length < (env'.members c).length := by rw [← hl, hm]; simp
  refine ⟨(env'.members c).take pre.length, (env'.members c)[pre.length], (env'.members c).drop (pre.length + 1), ?_, ?_,
    hp pre.length m _ (by rw [hm]; simp) (List.getElem?_eq_getElem hlen)⟩
  · rw [List.getElem_cons_drop, List.take_append_drop]
  · intro x hx
    obtain ⟨k, hk, rfl⟩ := List.mem_iff_getElem.1 hx
    rw [List.length_take] at hk
    have hk1 : k < pre.length := by omega
    refine ⟨pre[k], List.getElem_mem hk1, hp k _ _ ?_ ?_⟩
    · rw [hm, List.getElem?_append_left hk1]; exact List.getElem?_eq_getElem hk1
    · rw [List.getElem_take]; exact List.getElem?_eq_getElem (by omega)

/-- The first failure of a document is at the same place and has the same reason. -/
theorem first_shuffled {env env' : Env} (hclk : env.clk = env'.clk) (hc : ShuffledClasses env env') {t : Ty} {j : Json} {rel : List Seg} {e : Err}
    (hf : FirstBad env t j rel e) : ∀ t', Shuffled t t' → FirstBad env' t' j rel e := by
  have hr : ∀ {t t' : Ty} {x : Json}, Shuffled t t' → ¬ Refused env true t x → ¬ Refused env' true t' x := fun h hn hx =>
    hn ((refused_shuffled_iff hclk hc true h _).2 hx)
  have hfront : ∀ {ms : List (Str × Json)} {pre pre' : List Member}, (∀ x' ∈ pre', ∃ x ∈ pre, x.name = x'.name ∧ x.kind = x'.kind ∧ Shuffled x.ty x'.ty) →
      (∀ m', m' ∈ pre → (∀ i' j', findMember m'.name ms = some (i', j') → ¬ Refused env true m'.ty j') ∧ (findMember m'.name ms = none → m'.kind ≠ .required)) →
      ∀ m', m' ∈ pre' → (∀ i' j', findMember m'.name ms = some (i', j') → ¬ Refused env' true m'.ty j') ∧ (findMember m'.name ms = none → m'.kind ≠ .required) := by
    intro ms pre pre' h1 h2 m' hm'
    obtain ⟨m, hm, e1, e2, e3⟩ := h1 m' hm'
    rw [← e1, ← e2]
    exact ⟨fun i' j' h => hr e3 ((h2 m hm).1 i' j' h), (h2 m hm).2⟩
  induction hf with
  | leaf p j e h => intro t' h'; cases h'; exact .leaf p j e (reason_transfer hclk h)
  | array t j hw hj => intro t' h; exact .array _ j (by cases h <;> first | exact hw | cases hw) hj
  | object t j hw hj => intro t' h; exact .object _ j (by cases h <;> first | exact hw | cases hw) hj
  | vec t pre j post rel e hp _ ih => intro t' h; cases h with | vec _ _ h => exact .vec _ pre j post rel e (fun x hx => hr h (hp x hx)) (ih _ h)
  | set t pre j post rel e hp _ ih => intro t' h; cases h with | set _ _ h => exact .set _ pre j post rel e (fun x hx => hr h (hp x hx)) (ih _ h)
  | dict t pre j post rel e hp _ ih =>
    intro t' h
    cases h with
    | dict _ t1 h =>
      have h2 : Shuffled (.tuple [.prim .str, t]) (.tuple [.prim .str, t1]) := .tuple _ _ rfl fun i a b ha hb => by
        match i with
        | 0 => cases ha; cases hb; exact .prim _
        | 1 => cases ha; cases hb; exact h
        | _ + 2 => cases ha
      exact .dict _ pre j post rel e (fun x hx => hr h2 (hp x hx)) (ih _ h2)
  | arr n t pre j post rel e hn hp _ ih => intro t' h; cases h with | arr _ _ _ h => exact .arr n _ pre j post rel e hn (fun x hx => hr h (hp x hx)) (ih _ h)
  | arrLength n t js hl => intro t' h; cases h with | arr _ _ _ h => exact .arrLength n _ js hl
  | tuple ts js i t j rel e hlen hi hji hp _ ih =>
    intro t' h
    cases h with
    | tuple _ ts' hl h =>
      have hlt : i < ts'.length := by rw [← hl]; exact (List.getElem?_eq_some_iff.1 hi).1
      refine .tuple _ js i ts'[i] j rel e (by omega) (List.getElem?_eq_getElem hlt) hji (fun k t1 j1 hk ht1 hj1 => ?_)
        (ih _ (h i t _ hi (List.getElem?_eq_getElem hlt)))
      have hk' : k < ts.length := by omega
      exact hr (h k _ t1 (List.getElem?_eq_getElem hk') ht1) (hp k _ j1 hk (List.getElem?_eq_getElem hk') hj1)
  | tupleLength ts js hl => intro t' h; cases h with | tuple _ ts' hl' h => rw [hl']; exact .tupleLength _ js (by rw [← hl']; exact hl)
  | map o t pre key j post rel e hp _ ih => intro t' h; cases h with | map _ _ _ h => exact .map o _ pre key j post rel e (fun x hx => hr h (hp x hx)) (ih _ h)
  | variant ts j h0 =>
    intro t' h
    have := refused_shuffled hclk hc (.variant true ts j h0) t' h
    cases h with
    | variant _ ts' f g hl hf hg h =>
      cases this with
      | variant _ _ _ h1 => exact .variant _ j h1
      | array _ _ _ hw _ => cases hw
      | object _ _ _ hw _ => cases hw
  | member c ms pre m post i j rel e hm hp hfm _ ih =>
    intro t' h
    cases h
    obtain ⟨pre', m', post', h1, h2, h3, -, h5⟩ := members_front hc hm
    rw [h3]
    exact .member c ms pre' m' post' i j rel e h1 (hfront h2 hp) (by rw [← h3]; exact hfm) (ih _ h5)
  | missing c ms pre m post hm hp hfm hk =>
    intro t' h
    cases h
    obtain ⟨pre', m', post', h1, h2, h3, h4, -⟩ := members_front hc hm
    rw [h3]
    exact .missing c ms pre' m' post' h1 (hfront h2 hp) (by rw [← h3]; exact hfm) (by rw [← h4]; exact hk)
  | uptr t j rel e _ ih => intro t' h; cases h with | uptr _ _ h => exact .uptr _ j rel e (ih _ h)

theorem named_at {env env' : Env} (hc : ShuffledClasses env env') (c : Nat) (k : Str) (m : Member) (h : (env.members c).find? (fun m => m.name == k) = some m) :
    ∃ m', (env'.members c).find? (fun m => m.name == k) = some m' ∧ Shuffled m.ty m'.ty := by
  obtain ⟨hl, hp⟩ := hc c
  obtain ⟨h1, i, hi, h2, h3⟩ := List.find?_eq_some_iff_getElem.1 h
  have hi' : i < (env'.members c).length := by omega
  have hpi := hp i _ _ (List.getElem?_eq_getElem hi) (List.getElem?_eq_getElem hi')
  refine ⟨(env'.members c)[i], List.find?_eq_some_iff_getElem.2 ⟨?_, i, hi', rfl, fun j hj => ?_⟩, ?_⟩
  · rw [← hpi.1, h2]; exact h1
  · have hpj := hp j _ _ (List.getElem?_eq_getElem (by omega)) (List.getElem?_eq_getElem (by omega))
    rw [← hpj.1]; exact h3 j hj
  · rw [← h2]; exact hpi.2.2

/-- A document meets a type iff it meets the type with its alternatives in another order. -/
theorem meets_shuffled {env env' : Env} (hc : ShuffledClasses env env') :
    ∀ n doc, sizeOf doc ≤ n → ∀ t t', Shuffled t t' → (Meets env doc t ↔ Meets env' doc t') := by
  intro n
  induction n with
  | zero => intro doc hn; cases doc <;> simp at hn
  | succ n ihn =>
    intro doc hn t t' hl
    have hel : ∀ js, doc = .arr js → ∀ x ∈ js, ∀ t t', Shuffled t t' → (Meets env x t ↔ Meets env' x t') := by
      rintro js rfl x hx
      have := List.sizeOf_lt_of_mem hx
      simp at hn
      exact ihn x (by omega)
    have hfl : ∀ ms, doc = .obj ms → ∀ q ∈ ms, ∀ t t', Shuffled t t' → (Meets env q.2 t ↔ Meets env' q.2 t') := by
      rintro ms rfl q hq
      have := List.sizeOf_lt_of_mem hq
      have : sizeOf q.2 < sizeOf q := by cases q; simp; omega
      simp at hn
      exact ihn q.2 (by omega)
    induction hl with
    | prim p => rw [Meets, Meets]
    | vec t t' hl _ =>
      cases doc with
      | arr js => rw [meets_vec, meets_vec]; exact forall_congr' fun x => forall_congr' fun hx => hel js rfl x hx _ _ hl
      | _ => simp [Meets]
    | arr k t t' hl _ =>
      cases doc with
      | arr js => rw [meets_arr, meets_arr]; exact and_congr Iff.rfl (forall_congr' fun x => forall_congr' fun hx => hel js rfl x hx _ _ hl)
      | _ => simp [Meets]
    | set t t' hl _ =>
      cases doc with
      | arr js => rw [meets_set, meets_set]; exact and_congr Iff.rfl (forall_congr' fun x => forall_congr' fun hx => hel js rfl x hx _ _ hl)
      | _ => simp [Meets]
    | map o t t' hl _ =>
      cases doc with
      | obj ms => rw [Meets, Meets]; exact forall_congr' fun q => forall_congr' fun hq => hfl ms rfl q hq _ _ hl
      | _ => simp [Meets]
    | dict t t' hl _ =>
      cases doc with
      | arr js =>
        rw [meets_dict, meets_dict]
        refine forall_congr' fun x => forall_congr' fun hx => hel js rfl x hx (.tuple [.prim .str, t]) _ (.tuple _ _ rfl fun i a b ha hb => ?_)
        match i with
        | 0 => cases ha; cases hb; exact .prim _
        | 1 => cases ha; cases hb; exact hl
        | _ + 2 => cases ha
      | _ => simp [Meets]
    | tuple ts ts' hlen hl _ =>
      cases doc with
      | arr js =>
        rw [meets_tuple, meets_tuple]
        refine ⟨fun h => ⟨by omega, fun i hi hi' => ?_⟩, fun h => ⟨by omega, fun i hi hi' => ?_⟩⟩
        · have hi'' : i < ts.length := by omega
          exact (hel js rfl _ (List.getElem_mem hi) _ _ (hl i _ _ (List.getElem?_eq_getElem hi'') (List.getElem?_eq_getElem hi'))).1 (h.2 i hi hi'')
        · have hi'' : i < ts'.length := by omega
          exact (hel js rfl _ (List.getElem_mem hi) _ _ (hl i _ _ (List.getElem?_eq_getElem hi') (List.getElem?_eq_getElem hi''))).2 (h.2 i hi hi'')
      | _ => simp [Meets]
    | variant ts ts' f g hlen hf hg hl ih =>
      have key : ∀ i (hi : i < ts.length) (hi' : f i < ts'.length), Meets env doc ts[i] ↔ Meets env' doc ts'[f i] := fun i hi hi' =>
        ih i _ _ (List.getElem?_eq_getElem hi) (List.getElem?_eq_getElem hi')
      have key' : ∀ k (hk : g k < ts.length) (hk' : k < ts'.length), Meets env doc ts[g k] ↔ Meets env' doc ts'[k] := fun k hk hk' =>
        ih (g k) _ _ (List.getElem?_eq_getElem hk) (by rw [(hg k (by omega)).2]; exact List.getElem?_eq_getElem hk')
      rw [Meets, Meets]
      constructor
      · rintro ⟨i, hi, h1, h2⟩
        obtain ⟨a, b⟩ := hf i hi
        refine ⟨f i, by omega, (key i hi (by omega)).1 h1, fun k hk hne hm => ?_⟩
        obtain ⟨a', b'⟩ := hg k (by omega)
        exact h2 (g k) a' (fun e => hne (by rw [← e, b'])) ((key' k a' hk).2 hm)
      · rintro ⟨k, hk, h1, h2⟩
        obtain ⟨a, b⟩ := hg k (by omega)
        refine ⟨g k, a, (key' k a hk).2 h1, fun i hi hne hm => ?_⟩
        obtain ⟨a', b'⟩ := hf i hi
        exact h2 (f i) (by omega) (fun e => hne (by rw [← e, b'])) ((key i hi (by omega)).1 hm)
    | cls c =>
      cases doc with
      | obj ms =>
        rw [Meets, Meets]
        constructor
        · rintro ⟨h1, h2⟩
          refine ⟨fun q hq => ?_, fun m hm hk => ?_⟩
          · obtain ⟨m, hm, hv⟩ := h1 q hq
            obtain ⟨m', hm', hs⟩ := named_at hc c q.1 m hm
            exact ⟨m', hm', (hfl ms rfl q hq _ _ hs).1 hv⟩
          · obtain ⟨m', a, b, b', -⟩ := member_at hc.symm hm
            rw [b]
            exact h2 m' a (by rw [← b']; exact hk)
        · rintro ⟨h1, h2⟩
          refine ⟨fun q hq => ?_, fun m hm hk => ?_⟩
          · obtain ⟨m, hm, hv⟩ := h1 q hq
            obtain ⟨m', hm', hs⟩ := named_at hc.symm c q.1 m hm
            exact ⟨m', hm', (hfl ms rfl q hq _ _ hs.symm).2 hv⟩
          · obtain ⟨m', a, b, b', -⟩ := member_at hc hm
            rw [b]
            exact h2 m' a (by rw [← b']; exact hk)
      | _ => simp [Meets]
    | uptr t t' _ ih | sptr t t' _ ih => cases doc <;> (rw [Meets, Meets]; exact ih)

end Verif.Shuffle
