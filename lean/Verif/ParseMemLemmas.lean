import Verif.ParseMem

/-!
# The parser in place computes what the parser with objects on the stack computes
-/

namespace Verif.Core

/-! ## Paths -/

theorem load_append (v : Val) (a b : List Hop) : v.load (a ++ b) = (v.load a).bind (·.load b) := by
  induction a generalizing v with
  | nil => rfl
  | cons h a ih =>
    simp only [List.cons_append, Val.load]
    cases v.part h with
    | none => rfl
    | some w => simp [ih]

theorem store_append (v : Val) (a b : List Hop) (x : Val) : v.store (a ++ b) x =
    (v.load a).bind fun w => (w.store b x).bind fun w' => v.store a w' := by
  induction a generalizing v with
  | nil => simp [Val.load, Val.store]
  | cons h a ih =>
    simp only [List.cons_append, Val.load, Val.store]
    cases hp : v.part h with
    | none => rfl
    | some w =>
      simp only [Option.bind_some, ih]
      cases w.load a with
      | none => rfl
      | some u =>
        simp only [Option.bind_some]
        cases u.store b x with
        | none => rfl
        | some u' => rfl

theorem load_to (roots : List Val) (r : Ref) (q : List Hop) {v : Val} (h : load roots r = some v) :
    load roots ⟨r.root, r.path ++ q⟩ = v.load q := by
  unfold load at *
  cases hr : roots[r.root]? with
  | none => simp [hr] at h
  | some w =>
    simp only [hr, Option.bind_some] at h
    simp [load_append, h]

theorem store_to (roots : List Val) (r : Ref) (q : List Hop) {v v' x : Val} (h : load roots r = some v) (hv : v.store q x = some v') :
    store roots ⟨r.root, r.path ++ q⟩ x = store roots r v' := by
  unfold load at h
  unfold store
  cases hr : roots[r.root]? with
  | none => rfl
  | some w =>
    simp only [hr, Option.bind_some] at h
    simp [store_append, h, hv]

/-- Writing to the end of the path is the same as making the object anew. -/
def Wraps (hops : List Hop) (w : Val → Val) : Prop := ∀ v, (w v).load hops = some v ∧ ∀ x, (w v).store hops x = some (w x)

theorem Wraps.nil : Wraps [] id := fun _ => ⟨rfl, fun _ => rfl⟩

theorem Wraps.uptr {hops : List Hop} {w : Val → Val} (h : Wraps hops w) : Wraps (.pointee :: hops) (fun v => .uptr (w v)) :=
  fun v => ⟨by simp [Val.load, Val.part, (h v).1], fun x => by simp [Val.store, Val.part, Val.withPart, (h v).2 x]⟩

theorem Wraps.sptr {hops : List Hop} {w : Val → Val} (a : Nat) (h : Wraps hops w) : Wraps (.pointee :: hops) (fun v => .sptr a (w v)) :=
  fun v => ⟨by simp [Val.load, Val.part, (h v).1], fun x => by simp [Val.store, Val.part, Val.withPart, (h v).2 x]⟩

theorem Wraps.present {hops : List Hop} {w : Val → Val} (h : Wraps hops w) : Wraps (.engaged :: hops) (fun v => .present (w v)) :=
  fun v => ⟨by simp [Val.load, Val.part, (h v).1], fun x => by simp [Val.store, Val.part, Val.withPart, (h v).2 x]⟩

/-! ## The memory that belongs to a stack -/

/-- The storage of a handler. -/
def ownStorage : Handler → List Val
  | .setItems _ storage _ => [.seq storage]
  | _ => []

/-- The memory when the object at `link` of the object of the top of the stack is `v`. -/
def memoryBelow (link : Link) (v : Val) : List Frame → List Val
  | [] => [v]
  | p :: rest => memoryBelow p.link (p.wrap (plug p.handler link v).value) rest ++ ownStorage (plug p.handler link v)

/-- The memory. -/
def memory (f : Frame) (rest : List Frame) : List Val := memoryBelow f.link (f.wrap f.handler.value) rest ++ ownStorage f.handler

/-- Number of handlers with storage. -/
def storages : List Frame → Nat
  | [] => 0
  | f :: rest => (ownStorage f.handler).length + storages rest

theorem ownStorage_plug (h : Handler) (l : Link) (v : Val) : (ownStorage (plug h l v)).length = (ownStorage h).length := by
  unfold plug; split <;> rfl

theorem memoryBelow_length (l : Link) (v : Val) (rest : List Frame) : (memoryBelow l v rest).length = 1 + storages rest := by
  induction rest generalizing l v with
  | nil => rfl
  | cons p rest ih => simp only [memoryBelow, storages, List.length_append, ih, ownStorage_plug]; omega

/-- The step from the object of a handler to the part at a link. -/
def hopOf : Handler → Link → Option Hop
  | .vecItems _ vs, .item => some (.item vs.length)
  | .fixItems _ _ _ vs, .nth k => if k < vs.length then some (.nth k) else none
  | .mapItems _ _ _, .key k => some (.key k)
  | .objItems _ vs, .member i => if i < vs.length then some (.member i) else none
  | _, _ => none

theorem mapAssign_same {α : Type} (k : Str) (a b : α) (l : List (Str × α)) : mapAssign k b (mapAssign k a l) = mapAssign k b l := by
  induction l with
  | nil => simp [mapAssign]
  | cons p l ih =>
    obtain ⟨k', a'⟩ := p
    simp only [mapAssign]
    by_cases h1 : k' = k
    · simp [h1, mapAssign]
    · by_cases h2 : strLess k' k = true
      · simp [h1, h2, mapAssign, ih]
      · simp [h1, h2, mapAssign]

theorem lookup_assigned {α : Type} (k : Str) (a : α) (l : List (Str × α)) : (mapAssign k a l).lookup k = some a := by
  induction l with
  | nil => simp [mapAssign]
  | cons p l ih =>
    obtain ⟨k', a'⟩ := p
    simp only [mapAssign]
    by_cases h1 : k' = k
    · simp [h1]
    · by_cases h2 : strLess k' k = true
      · have : (k == k') = false := by simp [Ne.symm h1]
        simp [h1, h2, List.lookup, this, ih]
      · simp [h1, h2]

/-- The part at a link is what was put there, and can be exchanged. -/
theorem plug_part {h : Handler} {l : Link} {hop : Hop} (hh : hopOf h l = some hop) (v : Val) :
    (plug h l v).value.part hop = some v ∧ (∀ x, (plug h l v).value.withPart hop x = some (plug h l x).value) ∧ ownStorage (plug h l v) = [] := by
  unfold hopOf at hh
  split at hh
  · cases hh
    refine ⟨by simp [plug, Handler.value, Val.part], fun x => ?_, rfl⟩
    simp [plug, Handler.value, Val.withPart]
  · split at hh <;> cases hh
    refine ⟨by simp [plug, Handler.value, Val.part, *], fun x => ?_, rfl⟩
    simp [plug, Handler.value, Val.withPart]
  · cases hh
    refine ⟨by simp [plug, Handler.value, Val.part, lookup_assigned], fun x => ?_, rfl⟩
    simp [plug, Handler.value, Val.withPart, mapAssign_same]
  · split at hh <;> cases hh
    refine ⟨by simp [plug, Handler.value, Val.part, *], fun x => ?_, rfl⟩
    simp [plug, Handler.value, Val.withPart]
  · cases hh

/-! ## Stacks that correspond -/

mutual
/-- The type has no vectors of pairs with strings. -/
def Ty.dictless : Ty → Bool
  | .prim _ => true
  | .vec t => t.dictless
  | .arr _ t => t.dictless
  | .set t => t.dictless
  | .map _ t => t.dictless
  | .dict _ => false
  | .tuple ts => Ty.dictlesses ts
  | .variant ts => Ty.dictlesses ts
  | .cls _ => true
  | .uptr t => t.dictless
  | .sptr t => t.dictless

/-- `Ty.dictless` for lists. -/
def Ty.dictlesses : List Ty → Bool
  | [] => true
  | t :: ts => t.dictless && Ty.dictlesses ts
end

theorem dictlesses_iff (ts : List Ty) : Ty.dictlesses ts = true ↔ ∀ t ∈ ts, t.dictless = true := by
  induction ts with
  | nil => simp [Ty.dictlesses]
  | cons t ts ih => simp [Ty.dictlesses, ih]

/-- No member of a class has a vector of pairs with strings. -/
def Env.Dictless (env : Env) : Prop := ∀ c, ∀ m ∈ env.members c, m.ty.dictless = true

/-- The handler has all components of its object, and no dictionaries are below it. -/
def Handler.Fine (env : Env) : Handler → Prop
  | .vecStart t _ | .vecItems t _ | .setStart t _ | .setItems t _ _ | .mapStart _ t _ | .mapItems _ t _ => t.dictless = true
  | .fixStart _ ts vs | .fixItems _ ts _ vs => vs.length = ts.length ∧ ∀ t ∈ ts, t.dictless = true
  | .objStart c vs | .objItems c vs => vs.length = (env.members c).length
  | _ => True

/-- The class of a handler; `n` is the index of its storage. -/
def Handler.shell (n : Nat) : Handler → Shell
  | .leaf p _ => .leaf p
  | .vecStart t _ => .vecStart t
  | .vecItems t _ => .vecItems t
  | .setStart t _ => .setStart t
  | .setItems t _ _ => .setItems t n
  | .fixStart C ts _ => .fixStart C ts
  | .fixItems C ts i _ => .fixItems C ts i
  | .mapStart C t _ => .mapStart C t
  | .mapItems C t _ => .mapItems C t
  | .objStart c _ => .objStart c
  | .objItems c _ => .objItems c
  | .unsupported _ => .unsupported

/-- Where the part at `link` of the object of the top of the stack is. -/
def SlotAt (link : Link) (r : Ref) : List MFrame → List Frame → Prop
  | [], [] => r = ⟨0, []⟩
  | mp :: _, p :: rest => (∃ hop, hopOf p.handler link = some hop ∧ r = mp.ref.to hop) ∨
      (∃ t st vs, p.handler = .setItems t st vs ∧ link = .item ∧ r = ⟨1 + storages rest, [.item st.length]⟩)
  | _, _ => False

/-- The handlers on the two stacks have the same classes, and the references lead to the objects. -/
def Tracks (env : Env) : List MFrame → List Frame → Prop
  | [], [] => True
  | mf :: ms, f :: fs =>
      (mf.live = true ∧ mf.cls = f.cls ∧ mf.shell = f.handler.shell (1 + storages fs) ∧ f.handler.Fine env) ∧
      (∃ r hops, SlotAt f.link r ms fs ∧ mf.ref = ⟨r.root, r.path ++ hops⟩ ∧ Wraps hops f.wrap) ∧ Tracks env ms fs
  | _, _ => False

theorem tracks_cls {env : Env} : ∀ {ms : List MFrame} {fs : List Frame}, Tracks env ms fs → ms.map (·.cls) = fs.map (·.cls)
  | [], [], _ => rfl
  | mf :: ms, f :: fs, h => by simp [h.1.2.1, tracks_cls h.2.2]

/-- Reading and writing the part at a link. -/
theorem slot_memory {env : Env} {ms : List MFrame} {fs : List Frame} (hf : Tracks env ms fs) {l : Link} {r : Ref} (hs : SlotAt l r ms fs)
    (v : Val) (tail : List Val) :
    load (memoryBelow l v fs ++ tail) r = some v ∧ ∀ x, store (memoryBelow l v fs ++ tail) r x = some (memoryBelow l x fs ++ tail) := by
  induction fs generalizing ms l r v tail with
  | nil =>
    cases ms with
    | nil => cases hs; exact ⟨rfl, fun x => rfl⟩
    | cons mp ms => exact hs.elim
  | cons p rest ih =>
    cases ms with
    | nil => exact hs.elim
    | cons mp ms =>
      obtain ⟨-, ⟨r', hops, hslot, href, hw⟩, hrest⟩ := hf
      rcases hs with ⟨hop, hhop, rfl⟩ | ⟨t, st, vs, hp, rfl, rfl⟩
      · have hpart := plug_part hhop
        simp only [memoryBelow, (hpart _).2.2, List.append_nil]
        obtain ⟨hl, hst⟩ := ih hrest hslot (p.wrap (plug p.handler l v).value) tail
        simp only [Ref.to, href, List.append_assoc]
        constructor
        · rw [load_to _ r' _ hl, load_append, (hw _).1]
          simp [Val.load, (hpart v).1]
        · intro x
          have h2 : (p.wrap (plug p.handler l v).value).store (hops ++ [hop]) x = some (p.wrap (plug p.handler l x).value) := by
            rw [store_append, (hw _).1]
            simp [Val.store, (hpart v).1, (hpart v).2.1 x, (hw _).2]
          rw [store_to _ r' _ hl h2, hst]
      · have hval : ∀ y, (plug p.handler .item y).value = .set vs := by intro y; simp [hp, plug, Handler.value]
        have hown : ∀ y, ownStorage (plug p.handler .item y) = [.seq (st ++ [y])] := by intro y; simp [hp, plug, ownStorage]
        simp only [memoryBelow, hval, hown]
        have hlen := memoryBelow_length p.link (p.wrap (.set vs)) rest
        generalize memoryBelow p.link (p.wrap (.set vs)) rest = m at hlen
        constructor
        · simp [load, ← hlen, Val.load, Val.part]
        · intro x
          simp [store, ← hlen, Val.store, Val.part, Val.withPart]

/-- Reading and writing the object of a handler. -/
theorem frame_memory {env : Env} {mf : MFrame} {ms : List MFrame} {f : Frame} {fs : List Frame} (hf : Tracks env (mf :: ms) (f :: fs))
    (v : Val) (tail : List Val) :
    load (memoryBelow f.link (f.wrap v) fs ++ tail) mf.ref = some v ∧
      ∀ x, store (memoryBelow f.link (f.wrap v) fs ++ tail) mf.ref x = some (memoryBelow f.link (f.wrap x) fs ++ tail) := by
  obtain ⟨-, ⟨r, hops, hslot, href, hw⟩, hrest⟩ := hf
  obtain ⟨hl, hst⟩ := slot_memory hrest hslot (f.wrap v) tail
  rw [href]
  refine ⟨by rw [load_to _ r _ hl, (hw v).1], fun x => ?_⟩
  rw [store_to _ r _ hl ((hw v).2 x), hst]

/-! ## Valid references -/

/-- No frame has a reference to a proper part of `r`. -/
def Unharmed (r : Ref) (frames : List MFrame) : Prop := ∀ g ∈ frames, g.touch r = g

theorem Unharmed.map {r : Ref} {frames : List MFrame} (h : Unharmed r frames) : frames.map (MFrame.touch r) = frames := by
  induction frames with
  | nil => rfl
  | cons g frames ih => simp [h g (by simp), ih (fun g' hg => h g' (by simp [hg]))]

theorem touch_eq {r : Ref} {g : MFrame} (h : ¬ (g.ref.root = r.root ∧ r.path <+: g.ref.path ∧ g.ref.path ≠ r.path)) : g.touch r = g := if_neg h

/-- All references of the frames are to the object at `r` or to something it is part of, or to other roots. -/
def Outer (r : Ref) (frames : List MFrame) : Prop := ∀ g ∈ frames, g.ref.root ≠ r.root ∨ g.ref.path <+: r.path

theorem Outer.unharmed {r : Ref} {frames : List MFrame} (h : Outer r frames) (q : List Hop) : Unharmed ⟨r.root, r.path ++ q⟩ frames := by
  intro g hg
  refine touch_eq fun ⟨h1, h2, h3⟩ => ?_
  rcases h g hg with h4 | h4
  · exact h4 h1
  · simp only at h2 h3
    have l1 := h4.length_le
    have l2 := h2.length_le
    simp only [List.length_append] at l2
    have hq : q = [] := List.length_eq_zero_iff.1 (by omega)
    subst hq
    simp only [List.append_nil] at h2 h3
    exact h3 (h4.eq_of_length (by have := h2.length_le; omega))

theorem slot_outer {env : Env} : ∀ {ms : List MFrame} {fs : List Frame}, Tracks env ms fs →
    (∀ g ∈ ms, g.ref.root ≤ storages fs) ∧ ∀ {l : Link} {r : Ref}, SlotAt l r ms fs → r.root ≤ storages fs ∧ Outer r ms
  | [], [], _ => by
    refine ⟨by simp, fun {l r} hs => ?_⟩
    cases hs; exact ⟨Nat.zero_le _, fun g hg => by simp at hg⟩
  | mp :: ms, p :: rest, hf => by
    obtain ⟨-, ⟨r', hops, hslot, href, -⟩, hrest⟩ := hf
    obtain ⟨hb, hout⟩ := slot_outer hrest
    obtain ⟨hr', hr''⟩ := hout hslot
    have hmp : mp.ref.root ≤ storages (p :: rest) := by rw [href]; simp only [storages]; omega
    refine ⟨?_, fun {l r} hs => ?_⟩
    · intro g hg
      rcases List.mem_cons.1 hg with rfl | hg
      · exact hmp
      · have := hb g hg; simp only [storages]; omega
    · rcases hs with ⟨hop, -, rfl⟩ | ⟨t, st, vs, hp, -, rfl⟩
      · refine ⟨hmp, fun g hg => ?_⟩
        rcases List.mem_cons.1 hg with rfl | hg
        · exact .inr ⟨[hop], rfl⟩
        · rcases hr'' g hg with h | h
          · exact .inl (by simpa [Ref.to, href] using h)
          · refine .inr ?_
            obtain ⟨q, hq⟩ := h
            exact ⟨q ++ hops ++ [hop], by simp only [Ref.to, href]; rw [← hq]; simp⟩
      · refine ⟨by simp [storages, hp, ownStorage], fun g hg => .inl ?_⟩
        rcases List.mem_cons.1 hg with rfl | hg
        · rw [href]; simp only; omega
        · have := hb g hg; simp only; omega

theorem frame_outer {env : Env} {mf : MFrame} {ms : List MFrame} {f : Frame} {fs : List Frame} (hf : Tracks env (mf :: ms) (f :: fs)) :
    mf.ref.root ≤ storages fs ∧ Outer mf.ref (mf :: ms) := by
  obtain ⟨-, ⟨r, hops, hslot, href, -⟩, hrest⟩ := hf
  obtain ⟨h1, h2⟩ := (slot_outer hrest).2 hslot
  refine ⟨by rw [href]; exact h1, fun g hg => ?_⟩
  rcases List.mem_cons.1 hg with rfl | hg
  · exact .inr ⟨[], by simp⟩
  · rcases h2 g hg with h | h
    · exact .inl (by rw [href]; exact h)
    · obtain ⟨q, hq⟩ := h
      exact .inr ⟨q ++ hops, by rw [href]; simp only; rw [← hq]; simp⟩

/-! ## Construction of handlers -/

theorem openP_simple (env : Env) (t : Ty) (ht : t.dictless = true) (hu : ∀ u, t ≠ .uptr u) (hs : ∀ u, t ≠ .sptr u) (v : Val) (n : Nat) :
    ∃ h, openP env t v n = (h, id, n) ∧ h.value = shaped env t v ∧ (∀ k, h.shell k = shellOf env t) ∧ h.Fine env ∧ ownStorage h = [] := by
  cases t with
  | prim p => exact ⟨_, rfl, rfl, fun _ => rfl, trivial, rfl⟩
  | vec t => exact ⟨_, rfl, rfl, fun _ => rfl, ht, rfl⟩
  | arr k t =>
    refine ⟨_, rfl, rfl, fun _ => rfl, ⟨fit_length env _ _, ?_⟩, rfl⟩
    intro u hu'
    rw [(List.mem_replicate.1 hu').2]; exact ht
  | set t => exact ⟨_, rfl, rfl, fun _ => rfl, ht, rfl⟩
  | map o t => exact ⟨_, rfl, rfl, fun _ => rfl, ht, rfl⟩
  | dict t => cases ht
  | tuple ts => exact ⟨_, rfl, rfl, fun _ => rfl, ⟨fit_length env _ _, (dictlesses_iff ts).1 ht⟩, rfl⟩
  | variant ts => exact ⟨_, rfl, rfl, fun _ => rfl, trivial, rfl⟩
  | cls c =>
    by_cases hc : env.members c = []
    · exact ⟨.unsupported v, by simp [openP, hc], by simp [shaped, hc, Handler.value], fun _ => by simp [shellOf, hc, Handler.shell], trivial, rfl⟩
    · exact ⟨.objStart c (fitMembers env (env.members c) v.members), by simp [openP, hc], by simp [shaped, hc, Handler.value],
        fun _ => by simp [shellOf, hc, Handler.shell], fitMembers_length env _ _, rfl⟩
  | uptr t => exact absurd rfl (hu t)
  | sptr t => exact absurd rfl (hs t)

theorem assign_ok {f : MFrame} {r : Ref} {x : Val} {roots roots' : List Val} {frames : List MFrame} {k : List Val → List MFrame → MOut}
    (hl : f.live = true) (hs : store roots r x = some roots') (hu : Unharmed r frames) : assign f r x roots frames k = k roots' frames := by
  simp [assign, hl, hs, hu.map]

theorem fetch_ok {f : MFrame} {roots : List Val} {k : Val → MOut} {v : Val} (hl : f.live = true) (h : load roots f.ref = some v) :
    fetch f roots k = k v := by
  simp [fetch, hl, h]

/-- Constructing a handler for the object at `r`, where `R x` is the memory in which this object is `x`. -/
theorem mopen_ok (env : Env) (f : MFrame) (hl : f.live = true) (frames : List MFrame) : ∀ (t : Ty), t.dictless = true →
    ∀ (r : Ref) (v : Val) (n : Nat) (R : Val → List Val) (x : Val),
    (∀ x, load (R x) r = some x ∧ ∀ y, store (R x) r y = some (R y)) → (∀ q, Unharmed ⟨r.root, r.path ++ q⟩ frames) →
    ∃ h w n' hops, openP env t v n = (h, w, n') ∧ Wraps hops w ∧ h.Fine env ∧ ownStorage h = [] ∧
      ∀ k, mopen env f t r v (R x) frames n k = k (h.shell 0) ⟨r.root, r.path ++ hops⟩ (R (w h.value)) frames n' := by
  intro t
  have hq0 : ∀ r : Ref, (∀ q, Unharmed ⟨r.root, r.path ++ q⟩ frames) → Unharmed r frames := by
    intro r h; simpa using h []
  have simple : ∀ (t : Ty), t.dictless = true → (∀ u, t ≠ .uptr u) → (∀ u, t ≠ .sptr u) →
      ∀ (r : Ref) (v : Val) (n : Nat) (R : Val → List Val) (x : Val),
      (∀ x, load (R x) r = some x ∧ ∀ y, store (R x) r y = some (R y)) → (∀ q, Unharmed ⟨r.root, r.path ++ q⟩ frames) →
      (∀ k, mopen env f t r v (R x) frames n k =
        assign f r (shaped env t v) (R x) frames fun roots frames => k (shellOf env t) r roots frames n) →
      ∃ h w n' hops, openP env t v n = (h, w, n') ∧ Wraps hops w ∧ h.Fine env ∧ ownStorage h = [] ∧
        ∀ k, mopen env f t r v (R x) frames n k = k (h.shell 0) ⟨r.root, r.path ++ hops⟩ (R (w h.value)) frames n' := by
    intro t ht hu hs r v n R x hR hout heq
    obtain ⟨h, h1, h2, h3, h4, h5⟩ := openP_simple env t ht hu hs v n
    refine ⟨h, id, n, [], h1, Wraps.nil, h4, h5, fun k => ?_⟩
    rw [heq, assign_ok hl ((hR x).2 _) (hq0 r hout)]
    simp [h2, h3]
  induction t using Ty.rec (motive_2 := fun _ => True) with
  | uptr t ih =>
    intro ht r v n R x hR hout
    obtain ⟨h, w, n', hops, h1, h2, h3, h4, h5⟩ := ih ht (r.to .pointee) (env.ctor t) n (fun y => R (.uptr y)) (env.ctor t)
      (fun y => ⟨by simp only [Ref.to]; rw [load_to _ r _ (hR (.uptr y)).1]; rfl, fun z => by
        simp only [Ref.to]; rw [store_to _ r _ (hR (.uptr y)).1 (v' := .uptr z) rfl, (hR _).2]⟩)
      (fun q => by simpa only [Ref.to, List.append_assoc] using hout ([.pointee] ++ q))
    refine ⟨h, fun v => .uptr (w v), n', .pointee :: hops, by simp [openP, h1], h2.uptr, h3, h4, fun k => ?_⟩
    rw [mopen, assign_ok hl ((hR x).2 _) (hq0 r hout), h5]
    simp [Ref.to]
  | sptr t ih =>
    intro ht r v n R x hR hout
    obtain ⟨h, w, n', hops, h1, h2, h3, h4, h5⟩ := ih ht (r.to .pointee) (env.ctor t) (n + 1) (fun y => R (.sptr n y)) (env.ctor t)
      (fun y => ⟨by simp only [Ref.to]; rw [load_to _ r _ (hR (.sptr n y)).1]; rfl, fun z => by
        simp only [Ref.to]; rw [store_to _ r _ (hR (.sptr n y)).1 (v' := .sptr n z) rfl, (hR _).2]⟩)
      (fun q => by simpa only [Ref.to, List.append_assoc] using hout ([.pointee] ++ q))
    refine ⟨h, fun v => .sptr n (w v), n', .pointee :: hops, by simp [openP, h1], h2.sptr n, h3, h4, fun k => ?_⟩
    rw [mopen, assign_ok hl ((hR x).2 _) (hq0 r hout), h5]
    simp [Ref.to]
  | nil => trivial
  | cons _ _ _ _ => trivial
  | _ =>
    intro ht r v n R x hR hout
    exact simple _ ht (by simp) (by simp) r v n R x hR hout (fun k => by rw [mopen] <;> simp)

/-! ## Simulation -/

/-- The memory and the stack of references belong to the stack of objects. -/
def MirrorsState (env : Env) (c : MState) (s : PState) : Prop :=
  c.next = s.next ∧ Tracks env c.stack s.stack ∧
    match s.stack with
    | [] => ∃ v, s.finished = some v ∧ c.roots = [v]
    | f :: rest => c.roots = memory f rest

/-- The outcomes correspond. -/
def Mirrors (env : Env) : MOut → POut → Prop
  | .go c, .go s => MirrorsState env c s
  | .fail, .fail => True
  | .threw, .threw => True
  | .ub, .ub => True
  | .noHandler, .noHandler => True
  | _, _ => False

theorem shell_open {h : Handler} (ho : ownStorage h = []) (n m : Nat) : h.shell n = h.shell m := by
  cases h <;> first | rfl | cases ho

theorem place_ok (env : Env) (host : Host) (a : MFrame) (hl : a.live = true) {ms : List MFrame} {fs : List Frame} (hf : Tracks env ms fs)
    {l : Link} {r : Ref} (hs : SlotAt l r ms fs) (c : HClass) (t : Ty) (ht : t.dictless = true) (outer : Val → Val) (oh : List Hop)
    (ho : Wraps oh outer) (v x : Val) (n : Nat) (k : MFrame → List Val → List MFrame → Nat → MOut) (k' : Frame → Nat → POut)
    (hk : ∀ mg g n', Tracks env (mg :: ms) (g :: fs) → Mirrors env (k mg (memory g fs) ms n') (k' g n')) :
    Mirrors env (memplace env host a c t ⟨r.root, r.path ++ oh⟩ v (memoryBelow l (outer x) fs) ms n k)
      (emplaceP env host fs n c t v l outer k') := by
  unfold memplace emplaceP
  rw [tracks_cls hf]
  by_cases hr : room host (fs.map (·.cls)) c = true
  · rw [if_pos hr, if_pos hr]
    have hsl := fun y => slot_memory hf hs y []
    simp only [List.append_nil] at hsl
    obtain ⟨h, w, n', hops, h1, h2, h3, h4, h5⟩ := mopen_ok env a hl ms t ht ⟨r.root, r.path ++ oh⟩ v n
      (fun y => memoryBelow l (outer y) fs) x
      (fun y => ⟨by rw [load_to _ r _ (hsl _).1, (ho y).1], fun z => by rw [store_to _ r _ (hsl _).1 ((ho y).2 z), (hsl _).2]⟩)
      (fun q => by
        have := ((slot_outer hf).2 hs).2.unharmed (oh ++ q)
        simpa only [List.append_assoc] using this)
    rw [h5, h1]
    have := hk ⟨c, h.shell 0, ⟨r.root, r.path ++ oh ++ hops⟩, true⟩ ⟨c, h, l, fun v => outer (w v)⟩ n'
      ⟨⟨rfl, rfl, shell_open h4 _ _, h3⟩, ⟨r, oh ++ hops, hs, by simp, fun y => ⟨by
          rw [load_append, (ho _).1]; simp [(h2 y).1], fun z => by
          rw [store_append, (ho _).1]; simp [(h2 y).2 z, (ho _).2]⟩⟩, hf⟩
    simpa [memory, h4] using this
  · rw [if_neg hr, if_neg hr]
    trivial

theorem fine_plug {env : Env} {h : Handler} (hh : h.Fine env) (l : Link) (v : Val) : (plug h l v).Fine env := by
  unfold plug
  split <;> first | exact hh | (simpa [Handler.Fine] using hh)

theorem shell_plug (h : Handler) (l : Link) (v : Val) (n : Nat) : (plug h l v).shell n = h.shell n := by
  unfold plug; split <;> rfl

theorem pop_ok {env : Env} {mf : MFrame} {ms : List MFrame} {f : Frame} {fs : List Frame} (hf : Tracks env (mf :: ms) (f :: fs))
    (v : Val) (fin : Option Val) (n : Nat) (tail : List Val) (htail : tail.length = (ownStorage f.handler).length) :
    Mirrors env (mpop (memoryBelow f.link (f.wrap v) fs ++ tail) mf ms n) (.go (popTo f.wrap f.link v fs fin n)) := by
  obtain ⟨⟨-, -, hsh, -⟩, -, hrest⟩ := hf
  have hroots : mpop (memoryBelow f.link (f.wrap v) fs ++ tail) mf ms n = .go ⟨memoryBelow f.link (f.wrap v) fs, ms, n⟩ := by
    unfold mpop
    rw [hsh]
    cases hh : f.handler <;> simp only [hh, ownStorage, List.length_nil, List.length_cons, Nat.zero_add] at htail <;>
      simp only [Handler.shell]
    case setItems =>
      obtain ⟨x, rfl⟩ := List.length_eq_one_iff.1 htail
      simp
    all_goals rw [List.length_eq_zero_iff.1 htail]; simp
  rw [hroots]
  cases fs with
  | nil =>
    cases ms with
    | nil => exact ⟨rfl, trivial, _, rfl, rfl⟩
    | cons => exact hrest.elim
  | cons p rest =>
    cases ms with
    | nil => exact hrest.elim
    | cons mp ms =>
      refine ⟨rfl, ⟨⟨hrest.1.1, hrest.1.2.1, ?_, fine_plug hrest.1.2.2.2 _ _⟩, hrest.2.1, hrest.2.2⟩, rfl⟩
      simp only [shell_plug]
      exact hrest.1.2.2.1

/-- Another handler for the same object. -/
theorem tracks_swap {env : Env} {mf : MFrame} {ms : List MFrame} {f : Frame} {fs : List Frame} (hf : Tracks env (mf :: ms) (f :: fs))
    (c : HClass) (h : Handler) (hfine : h.Fine env) :
    Tracks env ({ mf with cls := c, shell := h.shell (1 + storages fs) } :: ms) ({ f with cls := c, handler := h } :: fs) :=
  ⟨⟨hf.1.1, rfl, rfl, hfine⟩, hf.2.1, hf.2.2⟩

theorem tracks_same {env : Env} {mf : MFrame} {ms : List MFrame} {f : Frame} {fs : List Frame} (hf : Tracks env (mf :: ms) (f :: fs))
    (h : Handler) (hfine : h.Fine env) (hsh : ∀ n, h.shell n = f.handler.shell n) :
    Tracks env (mf :: ms) ({ f with handler := h } :: fs) :=
  ⟨⟨hf.1.1, hf.1.2.1, by rw [hf.1.2.2.1]; simp [hsh], hfine⟩, hf.2.1, hf.2.2⟩

theorem replace_ok {env : Env} {host : Host} {mf : MFrame} {ms : List MFrame} {f : Frame} {fs : List Frame}
    (hf : Tracks env (mf :: ms) (f :: fs)) (c : HClass) (h : Handler) (hfine : h.Fine env) (fin : Option Val) (n : Nat) (roots : List Val)
    (hr : roots = memoryBelow f.link (f.wrap h.value) fs ++ ownStorage h) (s : Shell) (hs : s = h.shell (1 + storages fs)) :
    Mirrors env (mreplace host mf ms roots n c s) (replaceTop host f fs fin n c h) := by
  subst hs
  unfold mreplace replaceTop
  rw [tracks_cls hf.2.2]
  by_cases hroom : room host (fs.map (·.cls)) c = true
  · rw [if_pos hroom, if_pos hroom]
    exact ⟨rfl, tracks_swap hf c h hfine, hr⟩
  · rw [if_neg hroom, if_neg hroom]
    trivial

theorem openStep_ok {env : Env} {host : Host} {mf : MFrame} {ms : List MFrame} {f : Frame} {fs : List Frame}
    (hf : Tracks env (mf :: ms) (f :: fs)) (fin : Option Val) (n : Nat) (e : Event) :
    Mirrors env (mopenStep env host mf ms (memory f fs) n e) (openStep env host f fs fin n e) := by
  have hsh := hf.1.2.2.1
  have hlive := hf.1.1
  have hfine := hf.1.2.2.2
  unfold mopenStep openStep memory
  rw [hsh]
  have hlen := memoryBelow_length f.link (f.wrap f.handler.value) fs
  cases hh : f.handler with
  | leaf p v =>
    simp only [Handler.shell, ownStorage]
    cases hp : leafParse env p e with
    | ub => trivial
    | fail => trivial
    | ok pv =>
      simp only []
      have hst := (frame_memory hf (Handler.leaf p v).value []).2 (.prim pv)
      have hout : Unharmed mf.ref ms := by
        have := (frame_outer hf).2.unharmed []
        simp only [List.append_nil] at this
        exact fun g hg => this g (List.mem_cons_of_mem _ hg)
      rw [assign_ok hlive hst hout]
      by_cases hstay : p.stays = true
      · rw [if_pos hstay, if_pos hstay]
        refine ⟨rfl, tracks_same hf (.leaf p (.prim pv)) trivial (fun _ => by rw [hh]; rfl), rfl⟩
      · rw [if_neg hstay, if_neg hstay]
        exact pop_ok hf _ fin n [] (by simp [hh, ownStorage])
  | vecStart t vs =>
    rw [hh] at hfine
    cases e <;> first | trivial | (exact replace_ok hf _ (.vecItems t vs) hfine fin n _ rfl _ rfl)
  | setStart t vs =>
    rw [hh] at hfine hlen
    cases e <;> first | trivial | skip
    refine replace_ok hf _ (.setItems t [] vs) hfine fin n _ ?_ _ ?_
    · simp [Handler.value, ownStorage]
    · simp [Handler.shell, ownStorage, hlen]
  | fixStart C ts vs =>
    rw [hh] at hfine
    cases e <;> first | trivial | (exact replace_ok hf _ (.fixItems C ts 0 vs) hfine fin n _ rfl _ rfl)
  | mapStart C t vs =>
    rw [hh] at hfine
    cases e <;> first | trivial | (exact replace_ok hf _ (.mapItems C t vs) hfine fin n _ rfl _ rfl)
  | objStart c vs =>
    rw [hh] at hfine
    cases e <;> first | trivial | (exact replace_ok hf _ (.objItems c vs) hfine fin n _ rfl _ rfl)
  | unsupported v => trivial
  | vecItems t vs => trivial
  | setItems t st vs => trivial
  | fixItems C ts i vs => trivial
  | mapItems C t vs => trivial
  | objItems c vs => trivial

/-- One event. -/
theorem step_ok {env : Env} (hd : env.Dictless) {host : Host} {c : MState} {s : PState} (hm : MirrorsState env c s) (e : Event) :
    Mirrors env (mstep env host c e) (pstep env host s e) := by
  obtain ⟨roots, mstack, n⟩ := c
  obtain ⟨stack, fin, n'⟩ := s
  obtain ⟨hn, hf, hr⟩ := hm
  simp only at hn hf hr
  subst hn
  cases stack with
  | nil => cases mstack with
    | nil => trivial
    | cons => exact hf.elim
  | cons f fs =>
    cases mstack with
    | nil => exact hf.elim
    | cons mf ms =>
      simp only at hr
      subst hr
      have hsh := hf.1.2.2.1
      have hlive := hf.1.1
      have hfine := hf.1.2.2.2
      have hopen := openStep_ok (host := host) hf fin n e
      unfold mstep pstep
      simp only [hsh]
      have hu : ∀ q, Unharmed ⟨mf.ref.root, mf.ref.path ++ q⟩ (mf :: ms) := fun q => (frame_outer hf).2.unharmed q
      have hu0 : Unharmed mf.ref (mf :: ms) := by simpa using hu []
      have hur : Unharmed mf.ref ms := fun g hg => hu0 g (List.mem_cons_of_mem _ hg)
      have hlen := memoryBelow_length f.link (f.wrap f.handler.value) fs
      cases hh : f.handler with
      | vecItems t vs =>
        rw [hh] at hfine
        have hmem : memory f fs = memoryBelow f.link (f.wrap (.seq vs)) fs ++ [] := by simp [memory, hh, Handler.value, ownStorage]
        have hfm := frame_memory hf (.seq vs) []
        simp only [Handler.shell, hmem]
        have other : Mirrors env
            (match direct t with
              | some p =>
                  (match leafParse env p e with
                  | .ub => .ub
                  | .fail => .fail
                  | .ok pv =>
                      fetch mf (memoryBelow f.link (f.wrap (.seq vs)) fs ++ []) fun v =>
                        assign mf mf.ref (.seq (v.elements ++ [.prim pv])) (memoryBelow f.link (f.wrap (.seq vs)) fs ++ []) (mf :: ms)
                          fun roots frames => .go ⟨roots, frames, n⟩)
              | none =>
                  if isToken t e then
                    fetch mf (memoryBelow f.link (f.wrap (.seq vs)) fs ++ []) fun v =>
                      assign mf mf.ref (.seq (v.elements ++ [env.ctor t])) (memoryBelow f.link (f.wrap (.seq vs)) fs ++ []) (mf :: ms)
                        fun roots frames =>
                        memplace env host mf (.parser t) t (mf.ref.to (.item v.elements.length)) (env.ctor t) roots frames n
                          fun g roots frames n => mopenStep env host g frames roots n e
                  else .fail)
            (match direct t with
              | some p =>
                  (match leafParse env p e with
                  | .ub => .ub
                  | .fail => .fail
                  | .ok pv => .go ⟨{ f with handler := .vecItems t (vs ++ [.prim pv]) } :: fs, fin, n⟩)
              | none =>
                  if isToken t e then
                    emplaceP env host (f :: fs) n (.parser t) t (env.ctor t) .item id fun g n =>
                      openStep env host g (f :: fs) fin n e
                  else .fail) := by
          cases direct t with
          | some p =>
            simp only []
            cases leafParse env p e with
            | ub => trivial
            | fail => trivial
            | ok pv =>
              simp only []
              rw [fetch_ok hlive hfm.1, assign_ok hlive (hfm.2 _) hu0]
              exact ⟨rfl, tracks_same hf (.vecItems t (vs ++ [.prim pv])) hfine (fun _ => by rw [hh]; rfl), rfl⟩
          | none =>
            simp only []
            by_cases hi : isToken t e = true
            · rw [if_pos hi, if_pos hi, fetch_ok hlive hfm.1, assign_ok hlive (hfm.2 _) hu0]
              have := place_ok env host mf hlive hf (l := .item) (r := mf.ref.to (.item vs.length))
                (.inl ⟨_, by rw [hh]; rfl, rfl⟩) (.parser t) t hfine id [] Wraps.nil (env.ctor t) (env.ctor t) n
                (fun g roots frames n => mopenStep env host g frames roots n e) (fun g n => openStep env host g (f :: fs) fin n e)
                (fun mg g n' hg => openStep_ok hg fin n' e)
              simpa [memoryBelow, hh, plug, Handler.value, ownStorage, Val.elements] using this
            · rw [if_neg hi, if_neg hi]
              trivial
        cases e <;> first
          | exact pop_ok hf (.seq vs) fin n [] (by rw [hh]; rfl)
          | exact other
      | setItems t st vs =>
        rw [hh] at hfine hlen
        have hmem : memory f fs = memoryBelow f.link (f.wrap (.set vs)) fs ++ [.seq st] := by simp [memory, hh, Handler.value, ownStorage]
        have hfm := frame_memory hf (.set vs) [.seq st]
        simp only [Handler.shell, hmem]
        have hsl : load (memoryBelow f.link (f.wrap (.set vs)) fs ++ [.seq st]) ⟨1 + storages fs, []⟩ = some (.seq st) := by
          simp only [Handler.value] at hlen
          simp [load, ← hlen, Val.load]
        have hss : ∀ x, store (memoryBelow f.link (f.wrap (.set vs)) fs ++ [.seq st]) ⟨1 + storages fs, []⟩ x =
            some (memoryBelow f.link (f.wrap (.set vs)) fs ++ [x]) := by
          intro x
          simp only [Handler.value] at hlen
          simp [store, ← hlen, Val.store]
        have hus : Unharmed ⟨1 + storages fs, []⟩ (mf :: ms) := by
          intro g hg
          refine touch_eq fun h => ?_
          have := (slot_outer hf).1 g hg
          have h1 := h.1
          rcases List.mem_cons.1 hg with rfl | hg
          · have := (frame_outer hf).1; simp only at h1; omega
          · have := (slot_outer hf.2.2).1 g hg; simp only at h1; omega
        have other : Mirrors env
            (match direct t with
              | some p =>
                  (match leafParse env p e with
                  | .ub => .ub
                  | .fail => .fail
                  | .ok pv =>
                      fetch mf (memoryBelow f.link (f.wrap (.set vs)) fs ++ [.seq st]) fun v =>
                        assign mf mf.ref (.set (setInsert env.less (.prim pv) v.elements)) (memoryBelow f.link (f.wrap (.set vs)) fs ++ [.seq st])
                          (mf :: ms) fun roots frames => .go ⟨roots, frames, n⟩)
              | none =>
                  if isToken t e then
                    match load (memoryBelow f.link (f.wrap (.set vs)) fs ++ [.seq st]) ⟨1 + storages fs, []⟩ with
                    | none => .dangling
                    | some w =>
                        assign mf ⟨1 + storages fs, []⟩ (.seq (w.elements ++ [env.ctor t])) (memoryBelow f.link (f.wrap (.set vs)) fs ++ [.seq st])
                          (mf :: ms) fun roots frames =>
                          memplace env host mf (.parser t) t ⟨1 + storages fs, [.item w.elements.length]⟩ (env.ctor t) roots frames n
                            fun g roots frames n => mopenStep env host g frames roots n e
                  else .fail)
            (match direct t with
              | some p =>
                  (match leafParse env p e with
                  | .ub => .ub
                  | .fail => .fail
                  | .ok pv => .go ⟨{ f with handler := .setItems t st (setInsert env.less (.prim pv) vs) } :: fs, fin, n⟩)
              | none =>
                  if isToken t e then
                    emplaceP env host (f :: fs) n (.parser t) t (env.ctor t) .item id fun g n =>
                      openStep env host g (f :: fs) fin n e
                  else .fail) := by
          cases direct t with
          | some p =>
            simp only []
            cases leafParse env p e with
            | ub => trivial
            | fail => trivial
            | ok pv =>
              simp only []
              rw [fetch_ok hlive hfm.1, assign_ok hlive (hfm.2 _) hu0]
              exact ⟨rfl, tracks_same hf (.setItems t st (setInsert env.less (.prim pv) vs)) hfine (fun _ => by rw [hh]; rfl), rfl⟩
          | none =>
            simp only []
            by_cases hi : isToken t e = true
            · rw [if_pos hi, if_pos hi, hsl]
              simp only []
              rw [assign_ok hlive (hss _) hus]
              have := place_ok env host mf hlive hf (l := .item) (r := ⟨1 + storages fs, [.item st.length]⟩)
                (.inr ⟨t, st, vs, hh, rfl, rfl⟩) (.parser t) t hfine id [] Wraps.nil (env.ctor t) (env.ctor t) n
                (fun g roots frames n => mopenStep env host g frames roots n e) (fun g n => openStep env host g (f :: fs) fin n e)
                (fun mg g n' hg => openStep_ok hg fin n' e)
              simpa [memoryBelow, hh, plug, Handler.value, ownStorage, Val.elements] using this
            · rw [if_neg hi, if_neg hi]
              trivial
        have last : Mirrors env
            (fetch mf (memoryBelow f.link (f.wrap (.set vs)) fs ++ [.seq st]) fun v =>
                match load (memoryBelow f.link (f.wrap (.set vs)) fs ++ [.seq st]) ⟨1 + storages fs, []⟩ with
                | none => .dangling
                | some w =>
                    assign mf mf.ref (.set (w.elements.foldl (fun s x => setInsert env.less x s) v.elements))
                      (memoryBelow f.link (f.wrap (.set vs)) fs ++ [.seq st]) ms fun roots rest => mpop roots mf rest n)
            (.go (popTo f.wrap f.link (.set (st.foldl (fun s v => setInsert env.less v s) vs)) fs fin n)) := by
          rw [fetch_ok hlive hfm.1, hsl]
          simp only []
          rw [assign_ok hlive (hfm.2 _) hur]
          exact pop_ok hf _ fin n [.seq st] (by rw [hh]; rfl)
        cases e <;> first
          | exact last
          | exact other
      | fixItems C ts i vs =>
        rw [hh] at hfine
        have hmem : memory f fs = memoryBelow f.link (f.wrap (.tup vs)) fs ++ [] := by simp [memory, hh, Handler.value, ownStorage]
        simp only [Handler.shell, hmem]
        cases hi : ts[i]? with
        | none =>
          simp only []
          cases e <;> first
            | exact pop_ok hf (.tup vs) fin n [] (by rw [hh]; rfl)
            | trivial
        | some t =>
          simp only []
          by_cases hv : e.startsValue = true
          · rw [if_pos hv, if_pos hv, tracks_cls hf.2.2]
            by_cases hroom : room host (fs.map (·.cls)) (.fixed C (i + 1)) = true
            · rw [if_pos hroom, if_pos hroom]
              have hf' := tracks_swap hf (.fixed C (i + 1)) (.fixItems C ts (i + 1) vs) hfine
              have hfm := frame_memory hf' (.tup vs) []
              simp only [Handler.shell] at hf' hfm
              rw [fetch_ok (f := { mf with cls := .fixed C (i + 1), shell := .fixItems C ts (i + 1) }) hlive hfm.1]
              have hilt : i < vs.length := by rw [hfine.1]; exact (List.getElem?_eq_some_iff.1 hi).1
              have := place_ok env host { mf with cls := .fixed C (i + 1), shell := .fixItems C ts (i + 1) } hlive hf' (l := .nth i) (r := mf.ref.to (.nth i))
                (.inl ⟨.nth i, by simp [hopOf, hilt], rfl⟩) (.parser t) t (hfine.2 t (List.mem_of_getElem? hi)) id [] Wraps.nil
                (vs.getD i (env.ctor t)) (vs.getD i (env.ctor t)) n
                (fun g roots frames n => mopenStep env host g frames roots n e)
                (fun g n => openStep env host g ({ f with cls := .fixed C (i + 1), handler := .fixItems C ts (i + 1) vs } :: fs) fin n e)
                (fun mg g n' hg => openStep_ok hg fin n' e)
              have hset : vs.set i (vs.getD i (env.ctor t)) = vs := by
                rw [List.getD_eq_getElem?_getD, List.getElem?_eq_getElem hilt]; simp
              simpa [memoryBelow, plug, Handler.value, ownStorage, Val.components, hset, -List.getD_eq_getElem?_getD] using this
            · rw [if_neg hroom, if_neg hroom]
              trivial
          · rw [if_neg hv, if_neg hv]
            trivial
      | mapItems C t kvs =>
        rw [hh] at hfine
        have hmem : memory f fs = memoryBelow f.link (f.wrap (.map kvs)) fs ++ [] := by simp [memory, hh, Handler.value, ownStorage]
        have hfm := frame_memory hf (.map kvs) []
        simp only [Handler.shell, hmem]
        cases e <;> first
          | exact pop_ok hf (.map kvs) fin n [] (by rw [hh]; rfl)
          | trivial
          | skip
        rename_i k
        simp only []
        rw [fetch_ok hlive hfm.1, assign_ok hlive (hfm.2 _) hu0]
        have := place_ok env host mf hlive hf (l := .key k) (r := mf.ref.to (.key k))
          (.inl ⟨.key k, by rw [hh]; rfl, rfl⟩) (.parser t) t hfine id [] Wraps.nil
          ((kvs.lookup k).getD (env.ctor t)) ((kvs.lookup k).getD (env.ctor t)) n
          (fun g roots frames n => .go ⟨roots, g :: frames, n⟩)
          (fun g n => .go ⟨g :: f :: fs, fin, n⟩)
          (fun mg g n' hg => ⟨rfl, hg, rfl⟩)
        simpa [memoryBelow, hh, plug, Handler.value, ownStorage, Val.entries] using this
      | objItems c vs =>
        rw [hh] at hfine
        have hmem : memory f fs = memoryBelow f.link (f.wrap (.obj vs)) fs ++ [] := by simp [memory, hh, Handler.value, ownStorage]
        have hfm := frame_memory hf (.obj vs) []
        simp only [Handler.shell, hmem]
        cases e <;> first
          | exact pop_ok hf (.obj vs) fin n [] (by rw [hh]; rfl)
          | trivial
          | skip
        rename_i k
        simp only []
        cases selectMember env host c k with
        | reject => trivial
        | memoryError => trivial
        | member i =>
          simp only []
          cases hi : (env.members c)[i]? with
          | none => trivial
          | some m =>
            simp only []
            have hilt : i < vs.length := by
              rw [show vs.length = (env.members c).length from hfine]; exact (List.getElem?_eq_some_iff.1 hi).1
            have hmt := hd c m (List.mem_of_getElem? hi)
            have hslot : SlotAt (.member i) (mf.ref.to (.member i)) (mf :: ms) (f :: fs) :=
              .inl ⟨.member i, by rw [hh]; simp [hopOf, hilt], rfl⟩
            have hset : ∀ d, vs.set i (vs.getD i d) = vs := by
              intro d
              rw [List.getD_eq_getElem?_getD, List.getElem?_eq_getElem hilt]; simp
            have hbelow : memoryBelow f.link (f.wrap (.obj vs)) fs ++ [] = memoryBelow (.member i) (vs.getD i (env.ctor m.ty)) (f :: fs) := by
              simp [memoryBelow, hh, plug, Handler.value, ownStorage, hset, -List.getD_eq_getElem?_getD]
            by_cases ho : m.kind = .optional
            · rw [if_pos ho, if_pos ho, tracks_cls hf]
              by_cases hroom : room host ((f :: fs).map (·.cls)) (.optional m.ty) = true
              · rw [if_pos hroom]
                have hsm := slot_memory hf hslot (vs.getD i (env.ctor m.ty)) []
                simp only [List.append_nil] at hsm
                rw [hbelow, assign_ok hlive (hsm.2 _) (hu [.member i])]
                have := place_ok env host mf hlive hf hslot (.optional m.ty) m.ty hmt .present [.engaged] Wraps.nil.present
                  (env.ctor m.ty) (env.ctor m.ty) n
                  (fun g roots frames n => .go ⟨roots, g :: frames, n⟩)
                  (fun g n => .go ⟨g :: f :: fs, fin, n⟩)
                  (fun mg g n' hg => ⟨rfl, hg, rfl⟩)
                exact this
              · rw [if_neg hroom]
                unfold emplaceP
                rw [if_neg hroom]
                trivial
            · rw [if_neg ho, if_neg ho, fetch_ok hlive hfm.1, hbelow]
              have := place_ok env host mf hlive hf hslot (.parser m.ty) m.ty hmt id [] Wraps.nil
                (vs.getD i (env.ctor m.ty)) (vs.getD i (env.ctor m.ty)) n
                (fun g roots frames n => .go ⟨roots, g :: frames, n⟩)
                (fun g n => .go ⟨g :: f :: fs, fin, n⟩)
                (fun mg g n' hg => ⟨rfl, hg, rfl⟩)
              simpa [Val.members, -List.getD_eq_getElem?_getD] using this
      | _ => exact hopen

/-- All events. -/
theorem run_ok {env : Env} (hd : env.Dictless) {host : Host} (es : List Event) : ∀ {c : MState} {s : PState}, MirrorsState env c s →
    Mirrors env (mrun env host c es) (prun env host s es) := by
  induction es with
  | nil => exact fun h => h
  | cons e es ih =>
    intro c s h
    have h1 := step_ok hd (host := host) h e
    unfold mrun prun
    cases hm : mstep env host c e <;> cases hp : pstep env host s e <;> rw [hm, hp] at h1 <;>
      first
      | exact h1.elim
      | trivial
      | exact ih h1

/-- From the start. -/
theorem parse_ok {env : Env} (hd : env.Dictless) (host : Host) (t : Ty) (ht : t.dictless = true) (target : Val) (n : Nat) (es : List Event) :
    Mirrors env (mparse env host t target n es)
      (if room host [] (.parser t) then prun env host (start env t target n) es else .threw) := by
  have := place_ok env host ⟨.parser t, .unsupported, ⟨0, []⟩, true⟩ rfl (ms := []) (fs := []) trivial (l := .root) (r := ⟨0, []⟩) rfl (.parser t) t ht
    id [] Wraps.nil target target n (fun g roots frames n => mrun env host ⟨roots, g :: frames, n⟩ es)
    (fun g n => prun env host ⟨[g], none, n⟩ es) (fun mg g n' hg => run_ok hd es ⟨rfl, hg, rfl⟩)
  exact this

/-- What the objects on the stack make up, when the object above is `v`. -/
def madeUp (l : Link) (v : Val) : List Frame → Val
  | [] => v
  | p :: rest =>
      let g := collapse { p with handler := plug p.handler l v } rest
      g.wrap g.handler.value

theorem memory_target (fs : List Frame) (l : Link) (v : Val) : (memoryBelow l v fs).head? = some (madeUp l v fs) := by
  induction fs generalizing l v with
  | nil => rfl
  | cons p rest ih =>
    simp only [memoryBelow, List.head?_append, ih]
    cases rest <;> rfl

/-- The variable holds what the objects on the stack make up. -/
theorem mirrors_target {env : Env} {c : MState} {s : PState} (h : MirrorsState env c s) : c.roots.head? = some s.target := by
  obtain ⟨roots, mstack, n⟩ := c
  obtain ⟨stack, fin, n'⟩ := s
  obtain ⟨-, -, hr⟩ := h
  cases stack with
  | nil => obtain ⟨v, h1, h2⟩ := hr; simp only at h1 h2; subst h1 h2; rfl
  | cons f fs =>
    simp only at hr
    subst hr
    simp only [memory, List.head?_append, memory_target]
    cases fs <;> rfl

/-- Every reference leads to an object. -/
theorem tracks_loads {env : Env} : ∀ {ms : List MFrame} {fs : List Frame}, Tracks env ms fs → ∀ (l : Link) (v : Val) (tail : List Val),
    ∀ g ∈ ms, g.live = true ∧ (load (memoryBelow l v fs ++ tail) g.ref).isSome = true
  | [], [], _, _, _, _ => by simp
  | mf :: ms, f :: fs, hf, l, v, tail => by
    intro g hg
    simp only [memoryBelow, List.append_assoc]
    rcases List.mem_cons.1 hg with rfl | hg
    · exact ⟨hf.1.1, by rw [(frame_memory hf _ _).1]; rfl⟩
    · exact tracks_loads hf.2.2 _ _ _ g hg

theorem mirrors_loads {env : Env} {c : MState} {s : PState} (h : MirrorsState env c s) :
    ∀ g ∈ c.stack, g.live = true ∧ (load c.roots g.ref).isSome = true := by
  obtain ⟨roots, mstack, n⟩ := c
  obtain ⟨stack, fin, n'⟩ := s
  obtain ⟨-, hf, hr⟩ := h
  simp only at hf hr ⊢
  cases stack with
  | nil => cases mstack with
    | nil => simp
    | cons => exact hf.elim
  | cons f fs =>
    cases mstack with
    | nil => exact hf.elim
    | cons mf ms =>
      simp only at hr
      subst hr
      intro g hg
      rcases List.mem_cons.1 hg with rfl | hg
      · exact ⟨hf.1.1, by rw [memory, (frame_memory hf _ _).1]; rfl⟩
      · exact tracks_loads hf.2.2 _ _ _ g hg

/-- The number of storages is the number of set handlers on the stack. -/
theorem mirrors_storages {env : Env} {c : MState} {s : PState} (h : MirrorsState env c s) :
    c.roots.length = 1 + (c.stack.filter fun g => match g.shell with | .setItems _ _ => true | _ => false).length := by
  have count : ∀ {ms : List MFrame} {fs : List Frame}, Tracks env ms fs →
      storages fs = (ms.filter fun g => match g.shell with | .setItems _ _ => true | _ => false).length := by
    intro ms
    induction ms with
    | nil => intro fs hf; cases fs with
      | nil => rfl
      | cons => exact hf.elim
    | cons mf ms ih =>
      intro fs hf
      cases fs with
      | nil => exact hf.elim
      | cons f fs =>
        simp only [storages, ih hf.2.2, List.filter_cons, hf.1.2.2.1]
        cases f.handler <;> simp [Handler.shell, ownStorage]; omega
  obtain ⟨roots, mstack, n⟩ := c
  obtain ⟨stack, fin, n'⟩ := s
  obtain ⟨-, hf, hr⟩ := h
  simp only at hf hr ⊢
  rw [← count hf]
  cases stack with
  | nil => obtain ⟨v, -, rfl⟩ := hr; rfl
  | cons f fs =>
    simp only at hr
    subst hr
    simp only [memory, List.length_append, memoryBelow_length, storages]
    omega

theorem fit_whole (env : Env) (H : Heap) : ∀ (ts : List Ty) (vs : List Val), vs.length = ts.length → fit env ts vs = vs
  | [], [], _ => rfl
  | t :: ts, v :: vs, h => by simp [fit, fit_whole env H ts vs (by simpa using h)]

theorem fitMembers_whole (env : Env) : ∀ (ms : List Member) (vs : List Val), vs.length = ms.length → fitMembers env ms vs = vs
  | [], [], _ => rfl
  | m :: ms, v :: vs, h => by simp [fitMembers, fitMembers_whole env ms vs (by simpa using h)]

theorem hasTys_length (env : Env) (H : Heap) : ∀ (vs : List Val) (ts : List Ty), HasTys env H vs ts → vs.length = ts.length
  | [], [], _ => rfl
  | [], _ :: _, h => by simp [HasTys] at h
  | _ :: _, [], h => by simp [HasTys] at h
  | _ :: vs, _ :: ts, h => by simp [hasTys_length env H vs ts h.2]

theorem membersTy_length (env : Env) (H : Heap) : ∀ (vs : List Val) (ms : List Member), MembersTy env H vs ms → vs.length = ms.length
  | [], [], _ => rfl
  | [], _ :: _, h => by rw [MembersTy.eq_def] at h; exact h.elim
  | _ :: _, [], h => by rw [MembersTy.eq_def] at h; exact h.elim
  | _ :: vs, _ :: ms, h => by rw [MembersTy.eq_def] at h; simp [membersTy_length env H vs ms h.2]

/-- Values of the type have the components. -/
theorem shaped_of_hasTy (env : Env) (H : Heap) (t : Ty) (v : Val) (h : HasTy env H v t) : shaped env t v = v := by
  cases t <;> cases v <;> first
    | rfl
    | (exfalso; simp [HasTy] at h; done)
    | skip
  · have h := h; simp only [HasTy] at h; simp [shaped, Val.components]; exact fit_whole env H _ _ (by simp [h.1])
  · simp only [HasTy] at h; simp [shaped, Val.components]; exact fit_whole env H _ _ (hasTys_length env H _ _ h)
  · simp only [HasTy] at h
    simp only [shaped, Val.members]
    split
    · rfl
    · rw [fitMembers_whole env _ _ (membersTy_length env H _ _ h)]

/-- The object of a handler is in the variable, or in the storage of a handler below. -/
theorem tracks_roots {env : Env} : ∀ {ms : List MFrame} {fs : List Frame}, Tracks env ms fs → ∀ above g below, ms = above ++ g :: below →
    g.ref.root = 0 ∨ ∃ p ∈ below, ∃ t, p.shell = .setItems t g.ref.root
  | [], [], _, above, g, below, h => by simp at h
  | mf :: ms, f :: fs, hf, above, g, below, h => by
    cases above with
    | cons a above =>
      simp only [List.cons_append, List.cons.injEq] at h
      exact tracks_roots hf.2.2 above g below h.2
    | nil =>
      simp only [List.nil_append, List.cons.injEq] at h
      obtain ⟨rfl, rfl⟩ := h
      obtain ⟨r, hops, hs, href, -⟩ := hf.2.1
      have hrest := hf.2.2
      rw [href]
      cases ms with
      | nil => cases fs with
        | nil => cases hs; exact .inl rfl
        | cons => exact hs.elim
      | cons mp ms => cases fs with
        | nil => exact hs.elim
        | cons p rest =>
          rcases hs with ⟨hop, -, rfl⟩ | ⟨t, st, vs, hp, -, rfl⟩
          · rcases tracks_roots hrest [] mp ms rfl with h | ⟨q, hq, t, h⟩
            · exact .inl h
            · exact .inr ⟨q, List.mem_cons_of_mem _ hq, t, h⟩
          · exact .inr ⟨mp, List.mem_cons_self, t, by rw [hrest.1.2.2.1, hp]; rfl⟩

end Verif.Core
