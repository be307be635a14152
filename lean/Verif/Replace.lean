import Verif.Rename
import Verif.RenderLemmas

/-!
# Another content for a shared object

The object at one address gets another content. Wherever the value has a pointer to it, it has the new content; the document changes only where the object
is written in full, which is at most once.
-/

namespace Verif.Core

mutual
/-- The value with the content `w` for the shared object at the address `a`. -/
def Val.refill (a : Nat) (w : Val) : Val → Val
  | .prim p => .prim p
  | .seq vs => .seq (refillAll a w vs)
  | .tup vs => .tup (refillAll a w vs)
  | .set vs => .set (refillAll a w vs)
  | .map kvs => .map (refillVals a w kvs)
  | .dict kvs => .dict (refillVals a w kvs)
  | .alt i v => .alt i (Val.refill a w v)
  | .obj vs => .obj (refillAll a w vs)
  | .absent => .absent
  | .present v => .present (Val.refill a w v)
  | .nullptr => .nullptr
  | .uptr v => .uptr (Val.refill a w v)
  | .sptr b v => .sptr b (if b = a then w else Val.refill a w v)

/-- `refill` for lists. -/
def refillAll (a : Nat) (w : Val) : List Val → List Val
  | [] => []
  | v :: vs => Val.refill a w v :: refillAll a w vs

/-- `refill` for the values of a map. -/
def refillVals (a : Nat) (w : Val) : List (Str × Val) → List (Str × Val)
  | [] => []
  | (k, v) :: kvs => (k, Val.refill a w v) :: refillVals a w kvs
end

/-- Two documents that are the same but for one node, where they are related by `X`. -/
inductive OneNode (X : Json → Json → Prop) : Json → Json → Prop
  | here (x y : Json) : X x y → OneNode X x y
  | item (before after : List Json) (x y : Json) : OneNode X x y → OneNode X (.arr (before ++ x :: after)) (.arr (before ++ y :: after))
  | entry (before after : List (Str × Json)) (k : Str) (x y : Json) : OneNode X x y → OneNode X (.obj (before ++ (k, x) :: after)) (.obj (before ++ (k, y) :: after))

theorem refillAll_eq (a : Nat) (w : Val) (vs : List Val) : refillAll a w vs = vs.map (Val.refill a w) := by
  induction vs with
  | nil => rfl
  | cons v vs ih => simp [refillAll, ih]

theorem refillVals_eq (a : Nat) (w : Val) (kvs : List (Str × Val)) : refillVals a w kvs = kvs.map fun p => (p.1, Val.refill a w p.2) := by
  induction kvs with
  | nil => rfl
  | cons p kvs ih => obtain ⟨k, v⟩ := p; simp [refillVals, ih]

/-- One element of a list. -/
def OneItem (X : Json → Json → Prop) (xs ys : List Json) : Prop :=
  ∃ before x y after, xs = before ++ x :: after ∧ ys = before ++ y :: after ∧ OneNode X x y

/-- One entry of a list. -/
def OneEntry (X : Json → Json → Prop) (xs ys : List (Str × Json)) : Prop :=
  ∃ before k x y after, xs = before ++ (k, x) :: after ∧ ys = before ++ (k, y) :: after ∧ OneNode X x y

/-- Two results that began with the table `σ`: the same, or the object at `a` was written here for the first time, and the documents are related by `D`. `F`: nothing can fail;
then the results are the same only if the object was not written here. -/
inductive Parallel {α : Type} (a : Nat) (F : Prop) (D : α → α → Prop) (σ : STab) : SRes α → SRes α → Prop
  | ub : Parallel a F D σ .ub .ub
  | fail (τ : STab) : (σ.get a ≠ none → τ.get a ≠ none) → ¬ F → Parallel a F D σ (.done τ none) (.done τ none)
  | same (τ : STab) (x : α) : (σ.get a ≠ none → τ.get a ≠ none) → (F → σ.get a = none → τ.get a = none) → Parallel a F D σ (.done τ (some x)) (.done τ (some x))
  | differ (τ : STab) (x y : α) : σ.get a = none → τ.get a ≠ none → D x y → Parallel a F D σ (.done τ (some x)) (.done τ (some y))

section
variable {a : Nat} {F : Prop}

theorem Parallel.map {α β : Type} {D : α → α → Prop} {D' : β → β → Prop} {σ : STab} {r r' : SRes α} {f : α → β} (h : Parallel a F D σ r r')
    (hf : ∀ x y, D x y → D' (f x) (f y)) : Parallel a F D' σ (r.map f) (r'.map f) := by
  cases h with
  | ub => exact .ub
  | fail τ hm hF => exact .fail τ hm hF
  | same τ x hm hF => exact .same τ _ hm hF
  | differ τ x y h1 h2 h3 => exact .differ τ _ _ h1 h2 (hf _ _ h3)

theorem Parallel.later {α : Type} {D : α → α → Prop} {σ τ : STab} {r r' : SRes α} (hm : σ.get a ≠ none → τ.get a ≠ none)
    (hF : F → σ.get a = none → τ.get a = none) (h : Parallel a F D τ r r') : Parallel a F D σ r r' := by
  cases h with
  | ub => exact .ub
  | fail τ' h1 h2 => exact .fail τ' (fun h => h1 (hm h)) h2
  | same τ' x h1 h2 => exact .same τ' x (fun h => h1 (hm h)) fun f h => h2 f (hF f h)
  | differ τ' x y h1 h2 h3 => exact .differ τ' x y (Classical.byContradiction fun h => hm h h1) h2 h3

/-- An element that differs, then the rest, which is the same. -/
theorem Parallel.first {β : Type} {DL : List β → List β → Prop} {σ τ : STab} {x y : β} (g1 : σ.get a = none) (g2 : τ.get a ≠ none)
    (h1 : ∀ xs, DL (x :: xs) (y :: xs)) {c c' : SRes (List β)} (hk : Parallel a F DL τ c c') : Parallel a F DL σ (c.map (x :: ·)) (c'.map (y :: ·)) := by
  cases hk with
  | ub => exact .ub
  | fail τ' hm hF => exact .fail τ' (fun h => (h g1).elim) hF
  | same τ' xs hm hF => exact .differ τ' _ _ g1 (hm g2) (h1 xs)
  | differ τ' xs ys n1 n2 n3 => exact (g2 n1).elim

end

theorem put_get (σ : STab) (a : Nat) (segs : List Seg) : (σ.put a segs).get a ≠ none := by
  unfold STab.put STab.get
  cases h : σ.lookup a with
  | some s => simp [h]
  | none => simp

theorem get_none_keys {σ : STab} {a : Nat} (h : σ.get a = none) : a ∉ σ.keys := by
  unfold STab.get at h
  unfold STab.keys
  intro hm
  obtain ⟨p, hp, rfl⟩ := List.mem_map.1 hm
  have := List.lookup_eq_none_iff.1 h p hp
  simp at this

theorem put_get_ne (σ : STab) (a b : Nat) (h : b ≠ a) (segs : List Seg) : (σ.put b segs).get a = σ.get a := by
  unfold STab.put STab.get
  cases σ.lookup b with
  | some s => rfl
  | none =>
    show List.lookup a ((b, segs) :: σ) = _
    rw [List.lookup_cons, beq_false_of_ne (Ne.symm h)]

/-- A result that does not depend on the table. -/
def SRes.fixed {α : Type} (σ : STab) : Option (Option α) → SRes α
  | none => .ub
  | some x => .done σ x

/-- A serializer that does not depend on the table, and leaves it as it is. -/
def Alone {α : Type} (f : List Seg → STab → SRes α) : Prop := ∃ r : List Seg → Option (Option α), ∀ segs σ, f segs σ = SRes.fixed σ (r segs)

theorem Alone.map {α β : Type} {f : List Seg → STab → SRes α} (h : Alone f) (g : α → β) : Alone fun segs σ => (f segs σ).map g := by
  obtain ⟨r, hr⟩ := h
  refine ⟨fun segs => (r segs).map (·.map g), fun segs σ => ?_⟩
  simp only [hr]
  match r segs with
  | none => rfl
  | some none => rfl
  | some (some x) => rfl

theorem Alone.of {α : Type} {f g : List Seg → STab → SRes α} (h : Alone f) (e : ∀ segs σ, g segs σ = f segs σ) : Alone g := by
  obtain ⟨r, hr⟩ := h
  exact ⟨r, fun segs σ => by rw [e, hr]⟩

/-- What holds at each place. -/
theorem Alone.at {α : Type} {f : List Seg → STab → SRes α} (h : ∀ segs, ∃ r, ∀ σ, f segs σ = SRes.fixed σ r) : Alone f :=
  ⟨fun segs => (h segs).choose, fun segs => (h segs).choose_spec⟩

theorem Alone.const {α : Type} (r : Option (Option α)) (f : List Seg → STab → SRes α) (h : ∀ segs σ, f segs σ = SRes.fixed σ r) : Alone f := ⟨fun _ => r, h⟩

/-- One thing after another, at a place below. -/
theorem Alone.then {α : Type} {f : List Seg → STab → SRes Json} {g : List Seg → STab → SRes α} (s : List Seg → List Seg) (c : Json → α → α)
    (z : Option (STab → List Seg → SRes α)) (hz : ∀ k, z = some k → ∀ σ segs, k σ segs = g segs σ) (hf : Alone f) (hg : Alone g) :
    Alone fun segs σ =>
      match f (s segs) σ with
      | .ub => .ub
      | .done σ' none => (match z with | some k => k σ' segs | none => .done σ' none)
      | .done σ' (some j) => (g segs σ').map (c j) := by
  obtain ⟨r, hr⟩ := hf
  refine .at fun segs => ?_
  have hr := hr (s segs)
  match h : r (s segs) with
  | none => exact ⟨none, fun σ => by simp [hr, h, SRes.fixed]⟩
  | some none =>
    match z with
    | none => exact ⟨some none, fun σ => by simp [hr, h, SRes.fixed]⟩
    | some k =>
      obtain ⟨q, hq⟩ := hg
      exact ⟨q segs, fun σ => by simp [hr, h, SRes.fixed, hz k rfl]; exact hq segs σ⟩
  | some (some x) =>
    obtain ⟨q, hq⟩ := hg.map (c x)
    exact ⟨q segs, fun σ => by simp only [hr, h, SRes.fixed]; exact hq segs σ⟩

theorem serItems_alone (env : Env) (vs : List Val) (h : ∀ v ∈ vs, ∀ t, Alone (ser env v t)) (ts : List Ty) (k : Nat) : Alone (serItems env vs ts k) := by
  induction vs generalizing ts k with
  | nil =>
    cases ts with
    | nil => exact .const (some (some [])) _ fun segs σ => by simp [serItems, SRes.fixed]
    | cons t ts => exact .const none _ fun segs σ => by simp [serItems, SRes.fixed]
  | cons v vs ih =>
    cases ts with
    | nil => exact .const none _ fun segs σ => by simp [serItems, SRes.fixed]
    | cons t ts =>
      exact (Alone.then (.index k :: ·) (· :: ·) none nofun (h v (by simp) t) (ih (fun w hw => h w (by simp [hw])) ts (k + 1))).of fun segs σ => by
        rw [serItems]
        generalize ser env v t _ σ = r
        match r with
        | .ub => rfl
        | .done _ none => rfl
        | .done _ (some _) => rfl

theorem serSet_alone (env : Env) (vs : List Val) (h : ∀ v ∈ vs, ∀ t, Alone (ser env v t)) (t : Ty) : Alone (serSet env vs t) := by
  induction vs with
  | nil => exact .const (some (some [])) _ fun segs σ => by simp [serSet, SRes.fixed]
  | cons v vs ih =>
    exact (Alone.then id (· :: ·) none nofun (h v (by simp) t) (ih (fun w hw => h w (by simp [hw])))).of fun segs σ => by
      rw [serSet]
      simp only [id]
      generalize ser env v t _ σ = r
      match r with
      | .ub => rfl
      | .done _ none => rfl
      | .done _ (some _) => rfl

theorem serEntries_alone (fs : List (Str × (List Seg → STab → SRes Json))) (h : ∀ p ∈ fs, Alone p.2) : Alone (serEntries fs) := by
  induction fs with
  | nil => exact .const (some (some [])) _ fun segs σ => by simp [serEntries, SRes.fixed]
  | cons p fs ih =>
    obtain ⟨k, f⟩ := p
    exact (Alone.then (.name k :: ·) (fun j xs => (k, j) :: xs) none nofun (h (k, f) (by simp)) (ih (fun w hw => h w (by simp [hw])))).of fun segs σ => by
      rw [serEntries]
      simp only []
      generalize f _ σ = r
      match r with
      | .ub => rfl
      | .done _ none => rfl
      | .done _ (some _) => rfl

theorem serMembers_alone (env : Env) (vs : List Val) (h : ∀ v ∈ vs, (∀ t, Alone (ser env v t)) ∧ ∀ w, v = .present w → ∀ t, Alone (ser env w t)) (ms : List Member) :
    Alone (serMembers env vs ms) := by
  induction vs generalizing ms with
  | nil =>
    cases ms with
    | nil => exact .const (some (some [])) _ fun segs σ => by simp [serMembers, SRes.fixed]
    | cons m ms => exact .const none _ fun segs σ => by simp [serMembers, SRes.fixed]
  | cons v vs ih =>
    cases ms with
    | nil => exact .const none _ fun segs σ => by simp [serMembers, SRes.fixed]
    | cons m ms =>
      have ih := ih (fun p hp => h p (by simp [hp])) ms
      have step : ∀ w, Alone (ser env w m.ty) → Alone fun segs σ =>
          match ser env w m.ty (Seg.name m.name :: segs) σ with
            | .ub => .ub
            | .done σ' none => serMembers env vs ms segs σ'
            | .done σ' (some j) => (serMembers env vs ms segs σ').map ((m.name, j) :: ·) := by
        intro w hw
        exact (Alone.then (.name m.name :: ·) (fun j xs => (m.name, j) :: xs) (some fun σ segs => serMembers env vs ms segs σ) (by rintro _ ⟨⟩ _ _; rfl) hw ih).of fun segs σ => by
          generalize ser env w _ _ σ = r
          match r with
          | .ub => rfl
          | .done _ none => rfl
          | .done _ (some _) => rfl
      obtain ⟨name, kind, ty⟩ := m
      cases kind with
      | optional =>
        cases v with
        | absent => exact ih.of fun segs σ => by rw [serMembers.eq_def]
        | present w => exact (step w ((h _ (by simp)).2 w rfl _)).of fun segs σ => by rw [serMembers.eq_def]; rfl
        | _ => exact .const none _ fun segs σ => by simp [serMembers, SRes.fixed]
      | required => exact (step v ((h _ (by simp)).1 _)).of fun segs σ => by rw [serMembers.eq_def]; rfl
      | default => exact (step v ((h _ (by simp)).1 _)).of fun segs σ => by rw [serMembers.eq_def]; rfl

theorem addrsAll_nil (vs : List Val) (h : addrsAll vs = []) : ∀ w ∈ vs, addrs w = [] := by
  induction vs with
  | nil => simp
  | cons v vs ih =>
    simp only [addrsAll, List.append_eq_nil_iff] at h
    intro w hw
    rcases List.mem_cons.1 hw with rfl | hw
    · exact h.1
    · exact ih h.2 w hw

theorem addrsVals_nil (kvs : List (Str × Val)) (h : addrsVals kvs = []) : ∀ p ∈ kvs, addrs p.2 = [] := by
  induction kvs with
  | nil => simp
  | cons p kvs ih =>
    obtain ⟨k, v⟩ := p
    simp only [addrsVals, List.append_eq_nil_iff] at h
    intro w hw
    rcases List.mem_cons.1 hw with rfl | hw
    · exact h.1
    · exact ih h.2 w hw

/-- A value without shared objects is written in the same way whatever was written before. -/
theorem ser_alone (env : Env) : ∀ v, addrs v = [] → ∀ t, Alone (ser env v t) := by
  intro v
  induction v using Val.strong with
  | _ v ih =>
    intro hn t
    have hv : ∀ vs : List Val, addrsAll vs = [] → sizeOf vs < sizeOf v → ∀ w ∈ vs, ∀ t, Alone (ser env w t) :=
      fun vs h0 h w hw t => ih w (Nat.lt_trans (mem_size hw) h) (addrsAll_nil vs h0 w hw) t
    have hkv : ∀ kvs : List (Str × Val), addrsVals kvs = [] → sizeOf kvs < sizeOf v → ∀ t, ∀ p ∈ serVals env kvs t, Alone p.2 := by
      intro kvs h0 h t p hp
      rw [serVals_eq] at hp
      obtain ⟨q, hq, rfl⟩ := List.mem_map.1 hp
      exact ih q.2 (Nat.lt_trans (mem_size_kv hq) h) (addrsVals_nil kvs h0 q hq) t
    have bad : (∀ segs σ, ser env v t segs σ = .ub) → Alone (ser env v t) := fun h => .const none _ h
    cases v with
    | prim p =>
      cases t with
      | prim k =>
        cases hp : serPrim env k p with
        | ub => exact .const none _ fun segs σ => by simp [ser, hp, SRes.fixed]
        | fail => exact .const (some none) _ fun segs σ => by simp [ser, hp, SRes.fixed]
        | ok j => exact .const (some (some j)) _ fun segs σ => by simp [ser, hp, SRes.fixed]
      | _ => exact bad fun segs σ => by simp [ser]
    | seq vs =>
      cases t with
      | vec t => exact ((serItems_alone env vs (hv vs hn (by simp +arith)) (List.replicate vs.length t) 0).map Json.arr).of fun segs σ => by simp [ser]
      | _ => exact bad fun segs σ => by simp [ser]
    | tup vs =>
      cases t with
      | arr n t =>
        by_cases hl : vs.length = n
        · exact ((serItems_alone env vs (hv vs hn (by simp +arith)) (List.replicate n t) 0).map Json.arr).of fun segs σ => by simp [ser, hl]
        · exact bad fun segs σ => by simp [ser, hl]
      | tuple ts => exact ((serItems_alone env vs (hv vs hn (by simp +arith)) ts 0).map Json.arr).of fun segs σ => by simp [ser]
      | _ => exact bad fun segs σ => by simp [ser]
    | set vs =>
      cases t with
      | set t => exact ((serSet_alone env vs (hv vs hn (by simp +arith)) t).map Json.arr).of fun segs σ => by simp [ser]
      | _ => exact bad fun segs σ => by simp [ser]
    | map kvs =>
      cases t with
      | map o t =>
        refine .at fun segs => ?_
        obtain ⟨r, hr⟩ := (serEntries_alone (iterate env o segs (serVals env kvs t)) fun p hp => hkv kvs hn (by simp +arith) t p (of_iterate hp)).map Json.obj
        exact ⟨r segs, fun σ => by rw [ser]; exact hr segs σ⟩
      | _ => exact bad fun segs σ => by simp [ser]
    | dict kvs =>
      cases t with
      | dict t => exact ((serEntries_alone (serVals env kvs t) (hkv kvs hn (by simp +arith) t)).map Json.obj).of fun segs σ => by simp [ser]
      | _ => exact bad fun segs σ => by simp [ser]
    | alt i v =>
      cases t with
      | variant ts =>
        cases h1 : ts[i]? with
        | none => exact bad fun segs σ => by simp [ser, h1]
        | some t => exact (ih v (by simp +arith) hn t).of fun segs σ => by simp [ser, h1]
      | _ => exact bad fun segs σ => by simp [ser]
    | obj vs =>
      cases t with
      | cls c =>
        refine ((serMembers_alone env vs (fun w hw => ⟨hv vs hn (by simp +arith) w hw, fun u hu t => ?_⟩) (env.members c)).map Json.obj).of fun segs σ => by simp [ser]
        have h1 := mem_size hw
        have h2 := addrsAll_nil vs hn w hw
        subst hu
        exact ih u (by simp at h1 ⊢; omega) h2 t
      | _ => exact bad fun segs σ => by simp [ser]
    | uptr v =>
      cases t with
      | uptr t => exact (ih v (by simp +arith) hn t).of fun segs σ => by simp [ser]
      | _ => exact bad fun segs σ => by simp [ser]
    | sptr b v => simp [addrs] at hn
    | _ => exact bad fun segs σ => by simp [ser]

section
variable (env : Env) (H : Heap) (a : Nat) (F : Prop) (t0 : Ty) (va vb : Val) (X : Json → Json → Prop)

/-- What is to be shown for one value. -/
def SerBeside (v : Val) : Prop := ∀ t, HasTy env H v t → (F → finite v = true) → ∀ segs σ, Parallel a F (OneNode X) σ (ser env v t segs σ) (ser env (Val.refill a vb v) t segs σ)

theorem oneItem_here (X : Json → Json → Prop) (x y : Json) (xs : List Json) (h : OneNode X x y) : OneItem X (x :: xs) (y :: xs) :=
  ⟨[], x, y, xs, rfl, rfl, h⟩

theorem oneItem_later (X : Json → Json → Prop) (p : Json) (xs ys : List Json) (h : OneItem X xs ys) : OneItem X (p :: xs) (p :: ys) := by
  obtain ⟨b, u, w, c, rfl, rfl, hd⟩ := h
  exact ⟨p :: b, u, w, c, rfl, rfl, hd⟩

theorem serItems_beside (vs : List Val) (h : ∀ v ∈ vs, SerBeside env H a F vb X v) (ts : List Ty) (ht : HasTys env H vs ts) (hf : F → ∀ v ∈ vs, finite v = true) (k : Nat) (segs : List Seg) (σ : STab) :
    Parallel a F (OneItem X) σ (serItems env vs ts k segs σ) (serItems env (vs.map (Val.refill a vb)) ts k segs σ) := by
  induction vs generalizing ts k σ with
  | nil =>
    cases ts with
    | nil => simp only [List.map_nil, serItems]; exact .same _ _ id fun _ => id
    | cons t ts => simp [HasTys] at ht
  | cons v vs ih =>
    cases ts with
    | nil => simp [HasTys] at ht
    | cons t ts =>
      simp only [List.map_cons, serItems]
      have ih := fun τ => ih (fun w hw => h w (by simp [hw])) ts ht.2 (fun f w hw => hf f w (by simp [hw])) (k + 1) τ
      have hx := h v (by simp) t ht.1 (fun f => hf f v (by simp)) (.index k :: segs) σ
      revert hx
      generalize ser env v t (.index k :: segs) σ = r
      generalize ser env (Val.refill a vb v) t (.index k :: segs) σ = r'
      intro hx
      cases hx with
      | ub => exact .ub
      | fail τ hm hF => exact .fail τ hm hF
      | same τ x hm hF => exact ((ih τ).map (f := (x :: ·)) fun xs ys hd => oneItem_later _ x xs ys hd).later hm hF
      | differ τ x y g1 g2 g3 => exact Parallel.first g1 g2 (fun xs => oneItem_here _ x y xs g3) (ih τ)

theorem serSet_beside (vs : List Val) (h : ∀ v ∈ vs, SerBeside env H a F vb X v) (t : Ty) (ht : AllTy env H vs t) (hf : F → ∀ v ∈ vs, finite v = true) (segs : List Seg) (σ : STab) :
    Parallel a F (OneItem X) σ (serSet env vs t segs σ) (serSet env (vs.map (Val.refill a vb)) t segs σ) := by
  induction vs generalizing σ with
  | nil => simp only [List.map_nil, serSet]; exact .same _ _ id fun _ => id
  | cons v vs ih =>
    simp only [List.map_cons, serSet]
    have ih := fun τ => ih (fun w hw => h w (by simp [hw])) ht.2 (fun f w hw => hf f w (by simp [hw])) τ
    have hx := h v (by simp) t ht.1 (fun f => hf f v (by simp)) segs σ
    revert hx
    generalize ser env v t segs σ = r
    generalize ser env (Val.refill a vb v) t segs σ = r'
    intro hx
    cases hx with
    | ub => exact .ub
    | fail τ hm hF => exact .fail τ hm hF
    | same τ x hm hF => exact ((ih τ).map (f := (x :: ·)) fun xs ys hd => oneItem_later _ x xs ys hd).later hm hF
    | differ τ x y g1 g2 g3 => exact Parallel.first g1 g2 (fun xs => oneItem_here _ x y xs g3) (ih τ)

theorem oneEntry_here (X : Json → Json → Prop) (k : Str) (x y : Json) (xs : List (Str × Json)) (h : OneNode X x y) : OneEntry X ((k, x) :: xs) ((k, y) :: xs) :=
  ⟨[], k, x, y, xs, rfl, rfl, h⟩

theorem oneEntry_later (X : Json → Json → Prop) (p : Str × Json) (xs ys : List (Str × Json)) (h : OneEntry X xs ys) : OneEntry X (p :: xs) (p :: ys) := by
  obtain ⟨b, k, u, w, c, rfl, rfl, hd⟩ := h
  exact ⟨p :: b, k, u, w, c, rfl, rfl, hd⟩

theorem serEntries_beside (t : Ty) (kvs : List (Str × Val)) (h : ∀ p ∈ kvs, SerBeside env H a F vb X p.2) (ht : ∀ p ∈ kvs, HasTy env H p.2 t) (hf : F → ∀ p ∈ kvs, finite p.2 = true) (segs : List Seg) (σ : STab) :
    Parallel a F (OneEntry X) σ (serEntries (kvs.map fun p => (p.1, ser env p.2 t)) segs σ)
      (serEntries (kvs.map fun p => (p.1, ser env (Val.refill a vb p.2) t)) segs σ) := by
  induction kvs generalizing σ with
  | nil => exact .same _ _ id fun _ => id
  | cons p kvs ih =>
    obtain ⟨k, v⟩ := p
    simp only [List.map_cons, serEntries]
    have ih := fun τ => ih (fun p hp => h p (by simp [hp])) (fun p hp => ht p (by simp [hp])) (fun f p hp => hf f p (by simp [hp])) τ
    have hx := h (k, v) (by simp) t (ht (k, v) (by simp)) (fun f => hf f (k, v) (by simp)) (.name k :: segs) σ
    revert hx
    simp only []
    generalize ser env v t (.name k :: segs) σ = r
    generalize ser env (Val.refill a vb v) t (.name k :: segs) σ = r'
    intro hx
    cases hx with
    | ub => exact .ub
    | fail τ hm hF => exact .fail τ hm hF
    | same τ x hm hF => exact ((ih τ).map (f := ((k, x) :: ·)) fun xs ys hd => oneEntry_later _ (k, x) xs ys hd).later hm hF
    | differ τ x y g1 g2 g3 => exact Parallel.first g1 g2 (fun xs => oneEntry_here _ k x y xs g3) (ih τ)

theorem serMembers_beside (vs : List Val) (h : ∀ v ∈ vs, SerBeside env H a F vb X v ∧ ∀ w, v = .present w → SerBeside env H a F vb X w) (ms : List Member)
    (ht : MembersTy env H vs ms) (hf : F → ∀ v ∈ vs, finite v = true) (segs : List Seg) (σ : STab) :
    Parallel a F (OneEntry X) σ (serMembers env vs ms segs σ) (serMembers env (vs.map (Val.refill a vb)) ms segs σ) := by
  induction vs generalizing ms σ with
  | nil =>
    cases ms with
    | nil => simp only [List.map_nil, serMembers]; exact .same _ _ id fun _ => id
    | cons m ms => simp [MembersTy] at ht
  | cons v vs ih =>
    cases ms with
    | nil => simp [MembersTy] at ht
    | cons m ms =>
      have ih := fun ht τ => ih (fun p hp => h p (by simp [hp])) ms ht (fun f w hw => hf f w (by simp [hw])) τ
      have step : ∀ w, HasTy env H w m.ty → (F → finite w = true) → SerBeside env H a F vb X w → MembersTy env H vs ms →
          Parallel a F (OneEntry X) σ
          (match ser env w m.ty (Seg.name m.name :: segs) σ with
            | .ub => .ub
            | .done σ' none => serMembers env vs ms segs σ'
            | .done σ' (some j) => (serMembers env vs ms segs σ').map ((m.name, j) :: ·))
          (match ser env (Val.refill a vb w) m.ty (Seg.name m.name :: segs) σ with
            | .ub => .ub
            | .done σ' none => serMembers env (vs.map (Val.refill a vb)) ms segs σ'
            | .done σ' (some j) => (serMembers env (vs.map (Val.refill a vb)) ms segs σ').map ((m.name, j) :: ·)) := by
        intro w hw hw' hs hms
        have hx := hs _ hw hw' (.name m.name :: segs) σ
        revert hx
        generalize ser env w m.ty (.name m.name :: segs) σ = r
        generalize ser env (Val.refill a vb w) m.ty (.name m.name :: segs) σ = r'
        intro hx
        cases hx with
        | ub => exact .ub
        | fail τ hm hF => exact (ih hms τ).later hm fun f => (hF f).elim
        | same τ x hm hF => exact ((ih hms τ).map (f := ((m.name, x) :: ·)) fun xs ys hd => oneEntry_later _ (m.name, x) xs ys hd).later hm hF
        | differ τ x y g1 g2 g3 => exact Parallel.first g1 g2 (fun xs => oneEntry_here _ m.name x y xs g3) (ih hms τ)
      rw [List.map_cons, serMembers.eq_def, serMembers.eq_def env (Val.refill a vb v :: _)]
      obtain ⟨name, kind, ty⟩ := m
      rw [MembersTy.eq_def] at ht
      cases kind with
      | optional =>
        cases v with
        | absent => exact ih ht.2 σ
        | present w => exact step w ht.1 (fun f => by have := hf f (.present w) (by simp); simpa [finite] using this) ((h _ (by simp)).2 w rfl) ht.2
        | _ => exact ht.1.elim
      | required => exact step v ht.1 (fun f => hf f v (by simp)) (h _ (by simp)).1 ht.2
      | default => exact step v ht.1 (fun f => hf f v (by simp)) (h _ (by simp)).1 ht.2

variable (hH : H a = some (t0, va)) (hX : ∀ segs σ, ∃ x y, ser env va t0 segs σ = .done σ (some x) ∧ ser env vb t0 segs σ = .done σ (some y) ∧ X x y)

include hH hX in
theorem ser_beside : ∀ v, SerBeside env H a F vb X v := by
  intro v
  induction v using Val.strong with
  | _ v ih =>
    intro t ht hf segs σ
    have hv : ∀ vs : List Val, sizeOf vs < sizeOf v → ∀ w ∈ vs, SerBeside env H a F vb X w := fun vs h w hw => ih w (Nat.lt_trans (mem_size hw) h)
    have hkv : ∀ kvs : List (Str × Val), sizeOf kvs < sizeOf v → ∀ p ∈ kvs, SerBeside env H a F vb X p.2 := fun kvs h p hp => ih p.2 (Nat.lt_trans (mem_size_kv hp) h)
    have hitem : ∀ xs ys, OneItem X xs ys → OneNode X (.arr xs) (.arr ys) := by
      rintro xs ys ⟨b, x, y, c, rfl, rfl, hd⟩
      exact .item b c x y hd
    have hentry : ∀ xs ys, OneEntry X xs ys → OneNode X (.obj xs) (.obj ys) := by
      rintro xs ys ⟨b, k, x, y, c, rfl, rfl, hd⟩
      exact .entry b c k x y hd
    cases v with
    | prim p =>
      cases t with
      | prim k =>
        simp only [Val.refill, ser]
        cases hp : serPrim env k p with
        | ub => exact .ub
        | fail =>
          refine .fail _ id fun f => ?_
          obtain ⟨j, hj⟩ := serPrim_ok env p k ht (hf f)
          rw [hj] at hp
          cases hp
        | ok j => exact .same _ _ id fun _ => id
      | _ => exact ht.elim
    | seq vs =>
      cases t with
      | vec t =>
        simp only [Val.refill, refillAll_eq, ser, List.length_map]
        exact (serItems_beside env H a F vb X vs (hv vs (by simp +arith)) _ (HasTys_replicate env H vs t ht) (fun f => (finiteAll_iff vs).1 (hf f)) 0 segs σ).map hitem
      | _ => exact ht.elim
    | tup vs =>
      cases t with
      | arr n t =>
        simp only [Val.refill, refillAll_eq, ser, List.length_map]
        obtain ⟨rfl, ht⟩ := ht
        rw [if_pos rfl, if_pos rfl]
        exact (serItems_beside env H a F vb X vs (hv vs (by simp +arith)) _ (HasTys_replicate env H vs t ht) (fun f => (finiteAll_iff vs).1 (hf f)) 0 segs σ).map hitem
      | tuple ts =>
        simp only [Val.refill, refillAll_eq, ser]
        exact (serItems_beside env H a F vb X vs (hv vs (by simp +arith)) _ ht (fun f => (finiteAll_iff vs).1 (hf f)) 0 segs σ).map hitem
      | _ => exact ht.elim
    | set vs =>
      cases t with
      | set t =>
        simp only [Val.refill, refillAll_eq, ser]
        exact (serSet_beside env H a F vb X vs (hv vs (by simp +arith)) t ht.1 (fun f => (finiteAll_iff vs).1 (hf f)) segs σ).map hitem
      | _ => exact ht.elim
    | map kvs =>
      cases t with
      | map o t =>
        simp only [Val.refill, refillVals_eq, ser, serVals_eq, List.map_map, Function.comp_def]
        rw [iterate_map (g := fun p => ser env p.2 t), iterate_map (g := fun p => ser env (Val.refill a vb p.2) t)]
        exact (serEntries_beside env H a F vb X t _ (fun p hp => hkv kvs (by simp +arith) p (of_iterate hp))
          (fun p hp => (ValsTy_iff env H kvs t).1 ht.1 p (of_iterate hp)) (fun f p hp => (finiteVals_iff kvs).1 (hf f) p (of_iterate hp)) segs σ).map hentry
      | _ => exact ht.elim
    | dict kvs =>
      cases t with
      | dict t =>
        simp only [Val.refill, refillVals_eq, ser, serVals_eq, List.map_map, Function.comp_def]
        exact (serEntries_beside env H a F vb X t _ (hkv kvs (by simp +arith)) ((ValsTy_iff env H kvs t).1 ht) (fun f => (finiteVals_iff kvs).1 (hf f)) segs σ).map hentry
      | _ => exact ht.elim
    | alt i v =>
      cases t with
      | variant ts =>
        obtain ⟨t, h1, h2⟩ := ht
        simp only [Val.refill, ser, h1]
        exact ih v (by simp +arith) t h2 (fun f => by simpa [finite] using hf f) segs σ
      | _ => exact ht.elim
    | obj vs =>
      cases t with
      | cls c =>
        simp only [Val.refill, refillAll_eq, ser]
        exact (serMembers_beside env H a F vb X vs (fun w hw => ⟨hv vs (by simp +arith) w hw, fun u hu => ih u (by have := mem_size hw; subst hu; simp at this ⊢; omega)⟩)
          _ ht (fun f => (finiteAll_iff vs).1 (hf f)) segs σ).map hentry
      | _ => exact ht.elim
    | uptr v =>
      cases t with
      | uptr t => simp only [Val.refill, ser]; exact ih v (by simp +arith) t ht (fun f => by simpa [finite] using hf f) segs σ
      | _ => exact ht.elim
    | sptr b v =>
      cases t with
      | sptr t =>
        obtain ⟨h1, h2⟩ := ht
        simp only [Val.refill, ser]
        by_cases hb : b = a
        · subst hb
          rw [hH] at h1
          cases h1
          rw [if_pos rfl]
          cases hg : σ.get b with
          | some s => exact .same _ _ id fun _ => id
          | none =>
            obtain ⟨x, y, g1, g2, g3⟩ := hX segs σ
            simp only [g1, g2]
            exact .differ _ _ _ hg (put_get σ b segs) (.here _ _ g3)
        · rw [if_neg hb]
          cases hg : σ.get b with
          | some s => exact .same _ _ id fun _ => id
          | none =>
            have := ih v (by simp +arith) t h2 (fun f => by simpa [finite] using hf f) segs σ
            revert this
            simp only []
            generalize ser env v t segs σ = r
            generalize ser env (Val.refill a vb v) t segs σ = r'
            intro this
            cases this with
            | ub => exact .ub
            | fail τ hm hF => exact .fail τ hm hF
            | same τ x hm hF => exact .same _ _ (by rw [put_get_ne _ _ _ hb]; exact hm) (by rw [put_get_ne _ _ _ hb]; exact hF)
            | differ τ x y g1 g2 g3 => exact .differ _ _ _ g1 (by rw [put_get_ne _ _ _ hb]; exact g2) g3
      | _ => exact ht.elim
    | _ => cases t <;> exact ht.elim

end

end Verif.Core
