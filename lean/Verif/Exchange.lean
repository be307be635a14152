import Verif.Shuffle

/-!
# Containers that can be exchanged (C123)

`Ty.form`: the type with `std::vector` for `std::set`, a tuple for `std::array`, a vector of pairs for a dictionary, unordered maps, values for
`std::unique_ptr` and `double` for `float`. Whether a document is refused, and its first failure, depend on the form of the type only.
-/

namespace Verif.Exchange
open Verif.Core Verif.Shuffle

mutual
/-- What the readers see of a type when they decide whether a document can be read. -/
def form : Ty → Ty
  | .prim (.flt _) => .prim (.flt .double)
  | .prim p => .prim p
  | .vec t => .vec (form t)
  | .arr n t => .tuple (List.replicate n (form t))
  | .set t => .vec (form t)
  | .map _ t => .map false (form t)
  | .dict t => .vec (.tuple [.prim .str, form t])
  | .tuple ts => .tuple (forms ts)
  | .variant ts => .variant (forms ts)
  | .cls c => .cls c
  | .uptr t => form t
  | .sptr t => .sptr t

/-- `form` for lists. -/
def forms : List Ty → List Ty
  | [] => []
  | t :: ts => form t :: forms ts
end

/-- The member with the form of its type. -/
def formMember (m : Member) : Member := { m with ty := form m.ty }

/-- The program with the forms of all types. -/
def formEnv (env : Env) : Env := { env with classes := fun c => { env.classes c with members := (env.classes c).members.map formMember } }

theorem forms_map (ts : List Ty) : forms ts = ts.map form := by
  induction ts with
  | nil => rfl
  | cons t ts ih => simp [forms, ih]

theorem form_members (env : Env) (c : Nat) : (formEnv env).members c = (env.members c).map formMember := rfl

theorem form_leaf {env : Env} {p : Prim} {j : Json} (h : ∀ pv, ¬ LeafReads env p j pv) : ∃ q, form (.prim p) = .prim q ∧ ∀ pv, ¬ LeafReads (formEnv env) q j pv := by
  have key : ∀ q, (∀ pv, ¬ LeafReads env q j pv) → ∀ pv, ¬ LeafReads (formEnv env) q j pv := fun q hq pv h' => hq pv (leaf_transfer (env := env) (env' := formEnv env) rfl h')
  cases p with
  | flt f =>
    refine ⟨.flt .double, by rw [form], key _ fun pv h' => ?_⟩
    cases h' with
    | flt _ n => exact h _ (.flt f n)
  | _ => refine ⟨_, by rw [form]; simp, key _ h⟩

/-- A document that is refused is refused for the form of the type. -/
theorem refused_form {env : Env} {exc : Bool} {t : Ty} {j : Json} (hr : Refused env exc t j) : Refused (formEnv env) exc (form t) j := by
  induction hr with
  | prim exc p j hn =>
    obtain ⟨q, h1, h2⟩ := form_leaf hn
    rw [h1]
    exact .prim exc q j h2
  | array exc t j hw hj => exact .array exc _ j (by cases t <;> first | rfl | cases hw) hj
  | object exc t j hw hj => exact .object exc _ j (by cases t <;> first | rfl | cases hw) hj
  | vec exc t js j hj _ ih => rw [form]; exact .vec exc _ js j hj ih
  | arr exc n t js j hj _ ih =>
    rw [form]
    by_cases hl : js.length = n
    · obtain ⟨i, hi, rfl⟩ := List.getElem_of_mem hj
      exact .tuple exc _ js i (form t) _ (by rw [List.getElem?_replicate, if_pos (by omega)]) (List.getElem?_eq_getElem hi) ih
    · exact .tupleLength exc _ js (by rw [List.length_replicate]; exact hl)
  | arrLength exc n t js hl => rw [form]; exact .tupleLength exc _ js (by rw [List.length_replicate]; exact hl)
  | set exc t js j hj _ ih => rw [form]; exact .vec exc _ js j hj ih
  | map exc o t ms p hp _ ih => rw [form]; exact .map exc false _ ms p hp ih
  | dict exc t js j hj _ ih => rw [form]; exact .vec exc _ js j hj ih
  | tuple exc ts js i t j hi hji _ ih =>
    rw [form, forms_map]
    exact .tuple exc _ js i (form t) j (by rw [List.getElem?_map, hi]; rfl) hji ih
  | tupleLength exc ts js hl => rw [form, forms_map]; exact .tupleLength exc _ js (by rw [List.length_map]; exact hl)
  | variant exc ts j _ ih =>
    rw [form, forms_map]
    refine .variant exc _ j fun x hx => ?_
    obtain ⟨t, ht, rfl⟩ := List.mem_map.1 hx
    exact ih t ht
  | member c ms m i j hm hfm _ ih => exact .member c ms (formMember m) i j (List.mem_map_of_mem hm) hfm ih
  | missing c ms m hm hfm hk => exact .missing c ms (formMember m) (List.mem_map_of_mem hm) hfm hk
  | last c ms pre m post i j hm hpost hfm _ ih =>
    refine .last c ms (pre.map formMember) (formMember m) (post.map formMember) i j (by rw [form_members, hm]; simp) (fun x hx => ?_) hfm ih
    obtain ⟨y, hy, rfl⟩ := List.mem_map.1 hx
    exact hpost y hy
  | lastMissing c ms pre m post hm hpost hfm hk =>
    refine .lastMissing c ms (pre.map formMember) (formMember m) (post.map formMember) (by rw [form_members, hm]; simp) (fun x hx => ?_) hfm hk
    obtain ⟨y, hy, rfl⟩ := List.mem_map.1 hx
    exact hpost y hy
  | uptr exc t j _ ih => rw [form]; exact ih

/-- The pointers in front of a type. -/
theorem unwrap (t : Ty) : ∃ u, (∀ w, u ≠ .uptr w) ∧ form t = form u ∧ (∀ (env : Env) exc j, Refused env exc u j → Refused env exc t j) ∧
    ∀ (env : Env) j rel e, FirstBad env u j rel e → FirstBad env t j rel e := by
  match t with
  | .uptr t =>
    obtain ⟨u, h1, h2, h3, h4⟩ := unwrap t
    exact ⟨u, h1, by rw [form]; exact h2, fun env exc j h => .uptr exc t j (h3 env exc j h), fun env j rel e h => .uptr t j rel e (h4 env j rel e h)⟩
  | .prim _ | .vec _ | .arr _ _ | .set _ | .map _ _ | .dict _ | .tuple _ | .variant _ | .cls _ | .sptr _ =>
    exact ⟨_, (fun w h => by cases h), rfl, fun _ _ _ h => h, fun _ _ _ _ h => h⟩

/-- Members of the program with the forms, as members of the program. -/
theorem form_split {env : Env} {c : Nat} {pre post : List Member} {m : Member} (h : (formEnv env).members c = pre ++ m :: post) :
    ∃ pre' m' post', env.members c = pre' ++ m' :: post' ∧ pre = pre'.map formMember ∧ m = formMember m' ∧ post = post'.map formMember := by
  rw [form_members, List.map_eq_append_iff] at h
  obtain ⟨pre', rest, h1, h2, h3⟩ := h
  rw [List.map_eq_cons_iff] at h3
  obtain ⟨m', post', rfl, h4, h5⟩ := h3
  exact ⟨pre', m', post', h1, h2.symm, h4.symm, h5.symm⟩

theorem form_prim {t : Ty} {p : Prim} (hu : ∀ w, t ≠ .uptr w) (h : form t = .prim p) : ∃ q, t = .prim q ∧ (q = p ∨ ∃ f, q = .flt f ∧ p = .flt .double) := by
  cases t with
  | prim q =>
    cases q with
    | flt f => rw [form] at h; cases h; exact ⟨_, rfl, .inr ⟨f, rfl, rfl⟩⟩
    | _ => rw [form] at h <;> first | (cases h; exact ⟨_, rfl, .inl rfl⟩) | simp
  | uptr w => exact absurd rfl (hu w)
  | _ => rw [form] at h; cases h

theorem form_vec {t T : Ty} (hu : ∀ w, t ≠ .uptr w) (h : form t = .vec T) :
    (∃ u, t = .vec u ∧ form u = T) ∨ (∃ u, t = .set u ∧ form u = T) ∨ ∃ u, t = .dict u ∧ form (.tuple [.prim .str, u]) = T := by
  cases t with
  | vec u => rw [form] at h; cases h; exact .inl ⟨u, rfl, rfl⟩
  | set u => rw [form] at h; cases h; exact .inr (.inl ⟨u, rfl, rfl⟩)
  | dict u => rw [form] at h; cases h; exact .inr (.inr ⟨u, rfl, by simp [form, forms]⟩)
  | uptr w => exact absurd rfl (hu w)
  | prim q => cases q <;> (rw [form] at h <;> first | cases h | simp)
  | _ => rw [form] at h; cases h

theorem form_tuple {t : Ty} {Ts : List Ty} (hu : ∀ w, t ≠ .uptr w) (h : form t = .tuple Ts) :
    (∃ ts, t = .tuple ts ∧ Ts = ts.map form) ∨ ∃ n u, t = .arr n u ∧ Ts = List.replicate n (form u) := by
  cases t with
  | tuple ts => rw [form, forms_map] at h; cases h; exact .inl ⟨ts, rfl, rfl⟩
  | arr n u => rw [form] at h; cases h; exact .inr ⟨n, u, rfl, rfl⟩
  | uptr w => exact absurd rfl (hu w)
  | prim q => cases q <;> (rw [form] at h <;> first | cases h | simp)
  | _ => rw [form] at h; cases h

theorem form_map {t T : Ty} {o : Bool} (hu : ∀ w, t ≠ .uptr w) (h : form t = .map o T) : ∃ o' u, t = .map o' u ∧ form u = T := by
  cases t with
  | map o' u => rw [form] at h; cases h; exact ⟨o', u, rfl, rfl⟩
  | uptr w => exact absurd rfl (hu w)
  | prim q => cases q <;> (rw [form] at h <;> first | cases h | simp)
  | _ => rw [form] at h; cases h

theorem form_variant {t : Ty} {Ts : List Ty} (hu : ∀ w, t ≠ .uptr w) (h : form t = .variant Ts) : ∃ ts, t = .variant ts ∧ Ts = ts.map form := by
  cases t with
  | variant ts => rw [form, forms_map] at h; cases h; exact ⟨ts, rfl, rfl⟩
  | uptr w => exact absurd rfl (hu w)
  | prim q => cases q <;> (rw [form] at h <;> first | cases h | simp)
  | _ => rw [form] at h; cases h

theorem form_cls {t : Ty} {c : Nat} (hu : ∀ w, t ≠ .uptr w) (h : form t = .cls c) : t = .cls c := by
  cases t with
  | cls c' => rw [form] at h; cases h; rfl
  | uptr w => exact absurd rfl (hu w)
  | prim q => cases q <;> (rw [form] at h <;> first | cases h | simp)
  | _ => rw [form] at h; cases h

theorem form_never (n : Nat) : ∀ t w, sizeOf t ≤ n → form t ≠ .uptr w ∧ (∀ u, form t ≠ .set u) ∧ (∀ k u, form t ≠ .arr k u) ∧ ∀ u, form t ≠ .dict u := by
  induction n with
  | zero => intro t w h; cases t <;> simp at h
  | succ n ih =>
    intro t w h
    cases t with
    | uptr t => rw [form]; exact ih t w (by simp at h; omega)
    | prim q => cases q <;> (rw [form] <;> simp)
    | _ => rw [form]; simp

theorem form_wantsArray {t : Ty} (hu : ∀ w, t ≠ .uptr w) (h : (form t).wantsArray = true) : t.wantsArray = true := by
  cases t with
  | uptr w => exact absurd rfl (hu w)
  | prim q => cases q <;> (rw [form] at h <;> first | cases h | simp)
  | vec _ | set _ | dict _ | tuple _ | arr _ _ => rfl
  | _ => rw [form] at h; cases h

theorem form_wantsObject {t : Ty} (hu : ∀ w, t ≠ .uptr w) (h : (form t).wantsObject = true) : t.wantsObject = true := by
  cases t with
  | uptr w => exact absurd rfl (hu w)
  | prim q => cases q <;> (rw [form] at h <;> first | cases h | simp)
  | map _ _ | cls _ => rfl
  | _ => rw [form] at h; cases h

theorem form_unreads {env : Env} {p q : Prim} {j : Json} (hq : q = p ∨ ∃ f, q = .flt f ∧ p = .flt .double) (h : ∀ pv, ¬ LeafReads (formEnv env) p j pv) :
    ∀ pv, ¬ LeafReads env q j pv := by
  have key : ∀ pv, ¬ LeafReads env p j pv := fun pv h' => h pv (leaf_transfer (env := formEnv env) (env' := env) rfl h')
  rcases hq with rfl | ⟨f, rfl, rfl⟩
  · exact key
  · intro pv h'
    cases h' with
    | flt _ n => exact key _ (.flt .double n)

/-- A document that is refused for the form of a type is refused for the type. -/
theorem refused_of_form {env : Env} {exc : Bool} {T : Ty} {j : Json} (hr : Refused (formEnv env) exc T j) : ∀ t, form t = T → Refused env exc t j := by
  have never := fun t w => form_never (sizeOf t) t w (Nat.le_refl _)
  induction hr with
  | prim exc p j hn =>
    intro t h
    obtain ⟨u, hu, hf, h3, -⟩ := unwrap t
    obtain ⟨q, rfl, hq⟩ := form_prim hu (hf.symm.trans h)
    exact h3 _ _ _ (.prim exc q j (form_unreads hq hn))
  | array exc T j hw hj =>
    rintro t rfl
    obtain ⟨u, hu, hf, h3, -⟩ := unwrap t
    exact h3 _ _ _ (.array exc u j (form_wantsArray hu (by rw [← hf]; exact hw)) hj)
  | object exc T j hw hj =>
    rintro t rfl
    obtain ⟨u, hu, hf, h3, -⟩ := unwrap t
    exact h3 _ _ _ (.object exc u j (form_wantsObject hu (by rw [← hf]; exact hw)) hj)
  | vec exc T js j hj _ ih =>
    intro t h
    obtain ⟨u, hu, hf, h3, -⟩ := unwrap t
    apply h3
    rcases form_vec hu (hf.symm.trans h) with ⟨x, rfl, hx⟩ | ⟨x, rfl, hx⟩ | ⟨x, rfl, hx⟩
    · exact .vec exc x js j hj (ih x hx)
    · exact .set exc x js j hj (ih x hx)
    · exact .dict exc x js j hj (ih _ hx)
  | tuple exc Ts js i T j hi hji _ ih =>
    intro t h
    obtain ⟨u, hu, hf, h3, -⟩ := unwrap t
    apply h3
    rcases form_tuple hu (hf.symm.trans h) with ⟨ts, rfl, rfl⟩ | ⟨n, x, rfl, rfl⟩
    · rw [List.getElem?_map, Option.map_eq_some_iff] at hi
      obtain ⟨x, hx, hx'⟩ := hi
      exact .tuple exc ts js i x j hx hji (ih x hx')
    · rw [List.getElem?_replicate] at hi
      split at hi
      · cases hi
        exact .arr exc n x js j (List.mem_of_getElem? hji) (ih x rfl)
      · cases hi
  | tupleLength exc Ts js hl =>
    intro t h
    obtain ⟨u, hu, hf, h3, -⟩ := unwrap t
    apply h3
    rcases form_tuple hu (hf.symm.trans h) with ⟨ts, rfl, rfl⟩ | ⟨n, x, rfl, rfl⟩
    · exact .tupleLength exc ts js (by rw [List.length_map] at hl; exact hl)
    · exact .arrLength exc n x js (by rw [List.length_replicate] at hl; exact hl)
  | map exc o T ms p hp _ ih =>
    intro t h
    obtain ⟨u, hu, hf, h3, -⟩ := unwrap t
    apply h3
    obtain ⟨o', x, rfl, hx⟩ := form_map hu (hf.symm.trans h)
    exact .map exc o' x ms p hp (ih x hx)
  | variant exc Ts j _ ih =>
    intro t h
    obtain ⟨u, hu, hf, h3, -⟩ := unwrap t
    apply h3
    obtain ⟨ts, rfl, rfl⟩ := form_variant hu (hf.symm.trans h)
    exact .variant exc ts j fun x hx => ih _ (List.mem_map_of_mem hx) x rfl
  | member c ms m i j hm hfm _ ih =>
    intro t h
    obtain ⟨u, hu, hf, h3, -⟩ := unwrap t
    apply h3
    rw [form_cls hu (hf.symm.trans h)]
    obtain ⟨m', hm', rfl⟩ := List.mem_map.1 hm
    exact .member c ms m' i j hm' hfm (ih _ rfl)
  | missing c ms m hm hfm hk =>
    intro t h
    obtain ⟨u, hu, hf, h3, -⟩ := unwrap t
    apply h3
    rw [form_cls hu (hf.symm.trans h)]
    obtain ⟨m', hm', rfl⟩ := List.mem_map.1 hm
    exact .missing c ms m' hm' hfm hk
  | last c ms pre m post i j hm hpost hfm _ ih =>
    intro t h
    obtain ⟨u, hu, hf, h3, -⟩ := unwrap t
    apply h3
    rw [form_cls hu (hf.symm.trans h)]
    obtain ⟨pre', m', post', h5, rfl, rfl, rfl⟩ := form_split hm
    exact .last c ms pre' m' post' i j h5 (fun x hx => hpost (formMember x) (List.mem_map_of_mem hx)) hfm (ih _ rfl)
  | lastMissing c ms pre m post hm hpost hfm hk =>
    intro t h
    obtain ⟨u, hu, hf, h3, -⟩ := unwrap t
    apply h3
    rw [form_cls hu (hf.symm.trans h)]
    obtain ⟨pre', m', post', h5, rfl, rfl, rfl⟩ := form_split hm
    exact .lastMissing c ms pre' m' post' h5 (fun x hx => hpost (formMember x) (List.mem_map_of_mem hx)) hfm hk
  | arr exc n T js j hj _ ih => exact fun t h => absurd h ((never t T).2.2.1 n T)
  | arrLength exc n T js hl => exact fun t h => absurd h ((never t T).2.2.1 n T)
  | set exc T js j hj _ ih => exact fun t h => absurd h ((never t T).2.1 T)
  | dict exc T js j hj _ ih => exact fun t h => absurd h ((never t T).2.2.2 T)
  | uptr exc T j _ ih => exact fun t h => absurd h (never t T).1

theorem refused_form_iff (env : Env) (exc : Bool) (t : Ty) (j : Json) : Refused env exc t j ↔ Refused (formEnv env) exc (form t) j :=
  ⟨refused_form, fun h => refused_of_form h t rfl⟩

theorem reason_form {env : Env} {p : Prim} {j : Json} {e : Err} (h : LeafReason env p j e) : ∃ q, form (.prim p) = .prim q ∧ LeafReason (formEnv env) q j e := by
  have key : LeafReason (formEnv env) p j e := reason_transfer (env := env) (env' := formEnv env) rfl h
  cases p with
  | flt f =>
    refine ⟨.flt .double, by rw [form], ?_⟩
    cases h with
    | flt _ _ h => exact .flt .double _ h
    | string _ _ h => cases h
  | _ => refine ⟨_, by rw [form]; simp, key⟩

/-- The first failure of a document is the same for the form of the type. -/
theorem first_form {env : Env} {t : Ty} {j : Json} {rel : List Seg} {e : Err} (hf : FirstBad env t j rel e) : FirstBad (formEnv env) (form t) j rel e := by
  have hr : ∀ {t : Ty} {x : Json}, ¬ Refused env true t x → ¬ Refused (formEnv env) true (form t) x := fun h hx => h ((refused_form_iff env true _ _).2 hx)
  have hfront : ∀ {ms : List (Str × Json)} {pre : List Member},
      (∀ m', m' ∈ pre → (∀ i' j', findMember m'.name ms = some (i', j') → ¬ Refused env true m'.ty j') ∧ (findMember m'.name ms = none → m'.kind ≠ .required)) →
      ∀ m', m' ∈ pre.map formMember → (∀ i' j', findMember m'.name ms = some (i', j') → ¬ Refused (formEnv env) true m'.ty j') ∧
        (findMember m'.name ms = none → m'.kind ≠ .required) := by
    intro ms pre h m' hm'
    obtain ⟨m, hm, rfl⟩ := List.mem_map.1 hm'
    exact ⟨fun i' j' h' => hr ((h m hm).1 i' j' h'), (h m hm).2⟩
  induction hf with
  | leaf p j e h =>
    obtain ⟨q, h1, h2⟩ := reason_form h
    rw [h1]
    exact .leaf q j e h2
  | array t j hw hj => exact .array _ j (by cases t <;> first | rfl | cases hw) hj
  | object t j hw hj => exact .object _ j (by cases t <;> first | rfl | cases hw) hj
  | vec t pre j post rel e hp _ ih => rw [form]; exact .vec _ pre j post rel e (fun x hx => hr (hp x hx)) ih
  | set t pre j post rel e hp _ ih => rw [form]; exact .vec _ pre j post rel e (fun x hx => hr (hp x hx)) ih
  | dict t pre j post rel e hp _ ih => rw [form]; exact .vec _ pre j post rel e (fun x hx => hr (hp x hx)) ih
  | arr n t pre j post rel e hn hp _ ih =>
    rw [form]
    refine .tuple _ _ pre.length (form t) j rel e (by rw [List.length_replicate]; exact hn) ?_ (by simp) (fun k t' j' hk ht' hj' => ?_) ih
    · rw [List.getElem?_replicate, if_pos (by rw [← hn]; simp)]
    · rw [List.getElem?_replicate] at ht'
      split at ht'
      · cases ht'
        rw [List.getElem?_append_left hk] at hj'
        exact hr (hp j' (List.mem_of_getElem? hj'))
      · cases ht'
  | arrLength n t js hl =>
    rw [form]
    have := FirstBad.tupleLength (env := formEnv env) (List.replicate n (form t)) js (by rw [List.length_replicate]; exact hl)
    rwa [List.length_replicate] at this
  | tuple ts js i t j rel e hlen hi hji hp _ ih =>
    rw [form, forms_map]
    refine .tuple _ js i (form t) j rel e (by rw [List.length_map]; exact hlen) (by rw [List.getElem?_map, hi]; rfl) hji (fun k t' j' hk ht' hj' => ?_) ih
    rw [List.getElem?_map, Option.map_eq_some_iff] at ht'
    obtain ⟨x, hx, rfl⟩ := ht'
    exact hr (hp k x j' hk hx hj')
  | tupleLength ts js hl =>
    rw [form, forms_map]
    have := FirstBad.tupleLength (env := formEnv env) (ts.map form) js (by rw [List.length_map]; exact hl)
    rwa [List.length_map] at this
  | map o t pre key j post rel e hp _ ih => rw [form]; exact .map false _ pre key j post rel e (fun x hx => hr (hp x hx)) ih
  | variant ts j h =>
    rw [form, forms_map]
    refine .variant _ j fun x hx => ?_
    obtain ⟨t, ht, rfl⟩ := List.mem_map.1 hx
    exact refused_form (h t ht)
  | member c ms pre m post i j rel e hm hp hfm _ ih =>
    exact .member c ms (pre.map formMember) (formMember m) (post.map formMember) i j rel e (by rw [form_members, hm]; simp) (hfront hp) hfm ih
  | missing c ms pre m post hm hp hfm hk =>
    exact .missing c ms (pre.map formMember) (formMember m) (post.map formMember) (by rw [form_members, hm]; simp) (hfront hp) hfm hk
  | uptr t j rel e _ ih => rw [form]; exact ih

end Verif.Exchange
