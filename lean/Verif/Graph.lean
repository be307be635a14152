import Verif.WriteTotal

/-!
# Object graphs

Elsewhere a value contains the shared objects it refers to (`Val.sptr a v`), which covers acyclic graphs only. Here a
graph is a value whose shared pointers are addresses (`.sptr a .nullptr`) and a heap with the content of the objects.

The writers follow pointers by recursion (serialize_pointer.hpp:51-60, write_pointer.hpp:49-58). `unfold H n g` is the
graph as far as it can be seen by following at most `n` pointers in a row: deeper objects are replaced by null pointers,
which the writers cannot dereference (`ub`). So the outcome of `ser` and `wr` on `unfold H n g` is that of the C++ functions
on the graph if at most `n` nested calls for shared objects are needed, and `ub` for all `n` means that the recursion never ends.
-/

namespace Verif.Core
open Verif.Numeric

/-! ## Graphs and their unfolding -/

mutual
/-- Fill in the contents of shared objects. -/
def expand (d : Nat → Val) : Val → Val
  | .prim p => .prim p
  | .seq vs => .seq (expandAll d vs)
  | .tup vs => .tup (expandAll d vs)
  | .set vs => .set (expandAll d vs)
  | .map kvs => .map (expandVals d kvs)
  | .dict kvs => .dict (expandVals d kvs)
  | .alt i v => .alt i (expand d v)
  | .obj vs => .obj (expandAll d vs)
  | .absent => .absent
  | .present v => .present (expand d v)
  | .nullptr => .nullptr
  | .uptr v => .uptr (expand d v)
  | .sptr a _ => .sptr a (d a)

/-- `expand` for lists. -/
def expandAll (d : Nat → Val) : List Val → List Val
  | [] => []
  | v :: vs => expand d v :: expandAll d vs

/-- `expand` for the values of a map. -/
def expandVals (d : Nat → Val) : List (Str × Val) → List (Str × Val)
  | [] => []
  | (k, v) :: kvs => (k, expand d v) :: expandVals d kvs
end

/-- The object at an address. -/
def content (H : Heap) (a : Nat) : Val :=
  match H a with
  | some (_, w) => w
  | none => .nullptr

/-- The object at an address, as far as it is seen by following `n` pointers (counting the one to the object). -/
def object (H : Heap) : Nat → Nat → Val
  | 0, _ => .nullptr
  | n + 1, a => expand (object H n) (content H a)

/-- A graph, as far as it is seen by following `n` pointers. -/
def unfold (H : Heap) (n : Nat) (g : Val) : Val := expand (object H n) g

/-- The object at `a` contains a pointer to `b`. -/
def Edge (H : Heap) (b a : Nat) : Prop := b ∈ addrs (content H a)

mutual
/-- `g` is a graph of type `t`: as `HasTy`, with the type of each object in the heap. The order of the elements of a set
does not depend on the contents of shared objects (`std::less<std::shared_ptr>` compares addresses). -/
def GTy (env : Env) (H : Heap) : Val → Ty → Prop
  | .prim p, .prim k => PrimTy env p k
  | .seq vs, .vec t => GAll env H vs t
  | .tup vs, .arr n t => vs.length = n ∧ GAll env H vs t
  | .tup vs, .tuple ts => GTys env H vs ts
  | .set vs, .set t => GAll env H vs t ∧ ∀ d, (expandAll d vs).Pairwise fun x y => env.less x y = true
  | .map kvs, .map _ t => GVals env H kvs t ∧ Ascending kvs
  | .dict kvs, .dict t => GVals env H kvs t
  | .alt i v, .variant ts => ∃ t, ts[i]? = some t ∧ GTy env H v t
  | .obj vs, .cls c => GMembers env H vs (env.members c)
  | .uptr v, .uptr t => GTy env H v t
  | .sptr a v, .sptr t => v = .nullptr ∧ ∃ w, H a = some (t, w)
  | _, _ => False

/-- All elements have the same type. -/
def GAll (env : Env) (H : Heap) : List Val → Ty → Prop
  | [], _ => True
  | v :: vs, t => GTy env H v t ∧ GAll env H vs t

/-- Elements with types from a list. -/
def GTys (env : Env) (H : Heap) : List Val → List Ty → Prop
  | [], [] => True
  | v :: vs, t :: ts => GTy env H v t ∧ GTys env H vs ts
  | _, _ => False

/-- All values of a map have the same type. -/
def GVals (env : Env) (H : Heap) : List (Str × Val) → Ty → Prop
  | [], _ => True
  | (_, v) :: kvs, t => GTy env H v t ∧ GVals env H kvs t

/-- Member values. -/
def GMembers (env : Env) (H : Heap) : List Val → List Member → Prop
  | [], [] => True
  | v :: vs, m :: ms =>
      (match m.kind, v with
      | .optional, .absent => True
      | .optional, .present w => GTy env H w m.ty
      | .optional, _ => False
      | _, v => GTy env H v m.ty) ∧ GMembers env H vs ms
  | _, _ => False
end

/-- Every object of the heap has its type. -/
def Heap.Typed (env : Env) (H : Heap) : Prop := ∀ a t w, H a = some (t, w) → GTy env H w t

/-- Every object of the heap has its type and contains finite numbers only. -/
def Heap.Fine (env : Env) (H : Heap) : Prop := ∀ a t w, H a = some (t, w) → GTy env H w t ∧ finite w = true

theorem expandAll_eq (d : Nat → Val) (vs : List Val) : expandAll d vs = vs.map (expand d) := by
  induction vs with
  | nil => rfl
  | cons v vs ih => simp [expandAll, ih]

theorem expandVals_eq (d : Nat → Val) (kvs : List (Str × Val)) : expandVals d kvs = kvs.map fun p => (p.1, expand d p.2) := by
  induction kvs with
  | nil => rfl
  | cons p kvs ih => cases p; simp [expandVals, ih]

theorem GAll_iff (env : Env) (H : Heap) (vs : List Val) (t : Ty) : GAll env H vs t ↔ ∀ v ∈ vs, GTy env H v t := by
  induction vs with
  | nil => simp [GAll]
  | cons v vs ih => simp [GAll, ih]

theorem GVals_iff (env : Env) (H : Heap) (kvs : List (Str × Val)) (t : Ty) : GVals env H kvs t ↔ ∀ p ∈ kvs, GTy env H p.2 t := by
  induction kvs with
  | nil => simp [GVals]
  | cons p kvs ih => cases p; simp [GVals, ih]

theorem GTys_replicate (env : Env) (H : Heap) (vs : List Val) (t : Ty) (h : GAll env H vs t) :
    GTys env H vs (List.replicate vs.length t) := by
  induction vs with
  | nil => simp [GTys]
  | cons v vs ih => simp only [GAll] at h; simp [GTys, List.replicate_succ, h.1, ih h.2]

theorem GMembers_cons (env : Env) (H : Heap) (v : Val) (vs : List Val) (m : Member) (ms : List Member) :
    GMembers env H (v :: vs) (m :: ms) ↔
      (match fieldOf m.kind v with
      | .skip => True
      | .bad => False
      | .here w => GTy env H w m.ty) ∧ GMembers env H vs ms := by
  obtain ⟨name, kind, ty⟩ := m
  cases kind <;> cases v <;> simp only [GMembers, fieldOf]

theorem fieldOf_expand (d : Nat → Val) (k : Kind) (v : Val) :
    fieldOf k (expand d v) = match fieldOf k v with
      | .skip => .skip
      | .bad => .bad
      | .here w => .here (expand d w) := by
  cases k <;> cases v <;> simp [fieldOf, expand]

/-! ## The unfolding of graphs without cycles -/

theorem expand_congr (d d' : Nat → Val) : ∀ g, (∀ a ∈ addrs g, d a = d' a) → expand d g = expand d' g := by
  apply Val.strong
  intro g ih h
  have all : ∀ vs : List Val, sizeOf vs < sizeOf g → (∀ a ∈ addrsAll vs, d a = d' a) → expandAll d vs = expandAll d' vs := by
    intro vs hs hv
    rw [expandAll_eq, expandAll_eq]
    exact List.map_congr_left fun v hm => ih v (by have := mem_size hm; omega) fun a ha => hv a ((mem_addrsAll a vs).2 ⟨v, hm, ha⟩)
  have vals : ∀ kvs : List (Str × Val), sizeOf kvs < sizeOf g → (∀ a ∈ addrsVals kvs, d a = d' a) → expandVals d kvs = expandVals d' kvs := by
    intro kvs hs hv
    rw [expandVals_eq, expandVals_eq]
    exact List.map_congr_left fun p hm => by rw [ih p.2 (by have := mem_size_kv hm; omega) fun a ha => hv a ((mem_addrsVals a kvs).2 ⟨p, hm, ha⟩)]
  cases g with
  | prim | absent | nullptr => rfl
  | seq vs | tup vs | set vs | obj vs => simp only [expand]; rw [all vs (by simp) h]
  | map kvs | dict kvs => simp only [expand]; rw [vals kvs (by simp) h]
  | alt i v => simp only [expand]; rw [ih v (by simp; omega) h]
  | present v | uptr v => simp only [expand]; rw [ih v (by simp) h]
  | sptr a v => simp only [expand]; rw [h a (by simp [addrs])]

/-- After `n` pointers the object at `a` is seen completely. -/
def SettledAt (H : Heap) (a n : Nat) : Prop := ∀ m, n ≤ m → object H m a = object H n a

theorem SettledAt.mono {H : Heap} {a n m : Nat} (h : SettledAt H a n) (hm : n ≤ m) : SettledAt H a m := by
  intro k hk
  rw [h k (by omega), h m hm]

theorem settledAt_list {H : Heap} (l : List Nat) (h : ∀ a ∈ l, ∃ n, SettledAt H a n) : ∃ n, ∀ a ∈ l, SettledAt H a n := by
  induction l with
  | nil => exact ⟨0, by simp⟩
  | cons a l ih =>
    obtain ⟨n, hn⟩ := h a (by simp)
    obtain ⟨m, hm⟩ := ih fun b hb => h b (by simp [hb])
    refine ⟨n + m, fun b hb => ?_⟩
    rcases List.mem_cons.1 hb with rfl | hb
    · exact hn.mono (by omega)
    · exact (hm b hb).mono (by omega)

theorem settledAt_of_acc {H : Heap} {a : Nat} (h : Acc (Edge H) a) : ∃ n, SettledAt H a n := by
  induction h with
  | intro a _ ih =>
    obtain ⟨n, hn⟩ := settledAt_list (addrs (content H a)) ih
    refine ⟨n + 1, fun m hm => ?_⟩
    obtain ⟨k, rfl⟩ : ∃ k, m = k + 1 := ⟨m - 1, by omega⟩
    simp only [object]
    exact expand_congr _ _ _ fun b hb => hn b hb k (by omega)

open Classical in
/-- The object at an address with everything it refers to, when it is not part of a cycle and does not lead to one. -/
noncomputable def whole (H : Heap) (a : Nat) : Val := if h : ∃ n, SettledAt H a n then object H h.choose a else .nullptr

theorem whole_eq {H : Heap} {a n : Nat} (h : SettledAt H a n) : whole H a = object H n a := by
  have hx : ∃ n, SettledAt H a n := ⟨n, h⟩
  simp only [whole, dif_pos hx]
  have h1 := hx.choose_spec (hx.choose + n) (by omega)
  rw [← h1]
  exact h _ (by omega)

theorem whole_unfold {H : Heap} {a : Nat} (h : Acc (Edge H) a) : whole H a = expand (whole H) (content H a) := by
  obtain ⟨n, hn⟩ := settledAt_list (addrs (content H a)) fun b hb => settledAt_of_acc (h.inv hb)
  obtain ⟨m, hm⟩ := settledAt_of_acc h
  rw [whole_eq (hm.mono (show m ≤ n + m + 1 by omega))]
  simp only [object]
  exact expand_congr _ _ _ fun b hb => by rw [whole_eq ((hn b hb).mono (show n ≤ n + m by omega))]

theorem unfold_settles {H : Heap} {g : Val} (h : ∀ a ∈ addrs g, Acc (Edge H) a) :
    ∃ n, ∀ m, n ≤ m → unfold H m g = expand (whole H) g := by
  obtain ⟨n, hn⟩ := settledAt_list (addrs g) fun b hb => settledAt_of_acc (h b hb)
  exact ⟨n, fun m hm => expand_congr _ _ _ fun b hb => by rw [whole_eq ((hn b hb).mono hm)]⟩

/-- The heap of completely unfolded objects. -/
noncomputable def fullHeap (H : Heap) : Heap := fun a => (H a).map fun p => (p.1, whole H a)

theorem hasTy_expand (env : Env) (H : Heap) : ∀ g t, GTy env H g t →
    (∀ a ∈ addrs g, ∀ t w, H a = some (t, w) → HasTy env (fullHeap H) (whole H a) t) → HasTy env (fullHeap H) (expand (whole H) g) t := by
  apply Val.strong (P := fun g => ∀ t, GTy env H g t →
    (∀ a ∈ addrs g, ∀ t w, H a = some (t, w) → HasTy env (fullHeap H) (whole H a) t) → HasTy env (fullHeap H) (expand (whole H) g) t)
  intro g ih t hg hw
  unfold GTy at hg
  split at hg
  · simpa only [expand, HasTy] using hg
  · rename_i vs t
    rw [GAll_iff] at hg
    simp only [expand, HasTy, AllTy_iff, expandAll_eq, List.mem_map]
    rintro _ ⟨v, hv, rfl⟩
    exact ih v (by have := mem_size hv; simp; omega) t (hg v hv) fun a ha => hw a ((mem_addrsAll a vs).2 ⟨v, hv, ha⟩)
  · rename_i vs n t
    obtain ⟨hl, hg⟩ := hg
    rw [GAll_iff] at hg
    simp only [expand, HasTy, AllTy_iff, expandAll_eq, List.mem_map, List.length_map]
    refine ⟨hl, ?_⟩
    rintro _ ⟨v, hv, rfl⟩
    exact ih v (by have := mem_size hv; simp; omega) t (hg v hv) fun a ha => hw a ((mem_addrsAll a vs).2 ⟨v, hv, ha⟩)
  · rename_i vs ts
    simp only [expand, HasTy]
    have key : ∀ (us : List Val) (ts : List Ty), (∀ v ∈ us, v ∈ vs) → GTys env H us ts → HasTys env (fullHeap H) (expandAll (whole H) us) ts := by
      intro us
      induction us with
      | nil => intro ts _ h; cases ts <;> simp_all [GTys, expandAll, HasTys]
      | cons u us ihu =>
        intro ts hs h
        cases ts with
        | nil => simp [GTys] at h
        | cons t ts =>
          simp only [GTys] at h
          simp only [expandAll, HasTys]
          have hu := hs u (by simp)
          exact ⟨ih u (by have := mem_size hu; simp; omega) t h.1 fun a ha => hw a ((mem_addrsAll a vs).2 ⟨u, hu, ha⟩),
            ihu ts (fun v hv => hs v (by simp [hv])) h.2⟩
    exact key vs ts (fun _ h => h) hg
  · rename_i vs t
    obtain ⟨hg, hp⟩ := hg
    rw [GAll_iff] at hg
    simp only [expand, HasTy, AllTy_iff]
    refine ⟨?_, hp _⟩
    simp only [expandAll_eq, List.mem_map]
    rintro _ ⟨v, hv, rfl⟩
    exact ih v (by have := mem_size hv; simp; omega) t (hg v hv) fun a ha => hw a ((mem_addrsAll a vs).2 ⟨v, hv, ha⟩)
  · rename_i kvs o t
    obtain ⟨hg, hp⟩ := hg
    rw [GVals_iff] at hg
    simp only [expand, HasTy, ValsTy_iff, expandVals_eq]
    refine ⟨?_, by simpa [Ascending, Function.comp_def] using hp⟩
    simp only [List.mem_map]
    rintro _ ⟨p, hv, rfl⟩
    exact ih p.2 (by have := mem_size_kv hv; simp; omega) t (hg p hv) fun a ha => hw a ((mem_addrsVals a kvs).2 ⟨p, hv, ha⟩)
  · rename_i kvs t
    rw [GVals_iff] at hg
    simp only [expand, HasTy, ValsTy_iff, expandVals_eq, List.mem_map]
    rintro _ ⟨p, hv, rfl⟩
    exact ih p.2 (by have := mem_size_kv hv; simp; omega) t (hg p hv) fun a ha => hw a ((mem_addrsVals a kvs).2 ⟨p, hv, ha⟩)
  · rename_i i v ts
    obtain ⟨t, h1, h2⟩ := hg
    simp only [expand, HasTy]
    exact ⟨t, h1, ih v (by simp; omega) t h2 hw⟩
  · rename_i vs c
    simp only [expand, HasTy]
    have key : ∀ (us : List Val) (ms : List Member), (∀ v ∈ us, v ∈ vs) → GMembers env H us ms →
        MembersTy env (fullHeap H) (expandAll (whole H) us) ms := by
      intro us
      induction us with
      | nil => intro ms _ h; cases ms <;> simp_all [GMembers, expandAll, MembersTy]
      | cons u us ihu =>
        intro ms hs h
        cases ms with
        | nil => simp [GMembers] at h
        | cons m ms =>
          rw [GMembers_cons] at h
          rw [expandAll, MembersTy_cons, fieldOf_expand]
          refine ⟨?_, ihu ms (fun v hv => hs v (by simp [hv])) h.2⟩
          cases hk : fieldOf m.kind u with
          | skip => trivial
          | bad => simp [hk] at h
          | here w =>
            simp only [hk] at h
            have hu := hs u (by simp)
            refine ih w (by have := mem_size hu; have := fieldOf_size hk; simp; omega) m.ty h.1 fun a ha => hw a ?_
            exact (mem_addrsAll a vs).2 ⟨u, hu, by rw [addrs_field hk]; exact ha⟩
    exact key vs (env.members c) (fun _ h => h) hg
  · rename_i v t
    simp only [expand, HasTy]
    exact ih v (by simp) t hg hw
  · rename_i a v t
    obtain ⟨rfl, w, h⟩ := hg
    simp only [expand, HasTy]
    exact ⟨by simp [fullHeap, h], hw a (by simp [addrs]) t w h⟩
  · exact hg.elim

theorem Heap.Fine.typed {env : Env} {H : Heap} (h : H.Fine env) : H.Typed env := fun a t w ha => (h a t w ha).1

theorem hasTy_whole (env : Env) (H : Heap) (hH : H.Typed env) {a : Nat} (h : Acc (Edge H) a) :
    ∀ t w, H a = some (t, w) → HasTy env (fullHeap H) (whole H a) t := by
  induction h with
  | intro a hacc ih =>
    intro t w ha
    have hc : content H a = w := by simp [content, ha]
    rw [whole_unfold (.intro a hacc), hc]
    refine hasTy_expand env H w t (hH a t w ha) fun b hb => ih b ?_
    rw [Edge, hc]
    exact hb

theorem finite_expand (d : Nat → Val) : ∀ g, finite g = true → (∀ a ∈ addrs g, finite (d a) = true) → finite (expand d g) = true := by
  apply Val.strong
  intro g ih h hd
  have all : ∀ vs : List Val, sizeOf vs < sizeOf g → finiteAll vs = true → (∀ a ∈ addrsAll vs, finite (d a) = true) → finiteAll (expandAll d vs) = true := by
    intro vs hs hf hv
    rw [expandAll_eq, finiteAll_iff]
    rw [finiteAll_iff] at hf
    simp only [List.mem_map]
    rintro _ ⟨v, hm, rfl⟩
    exact ih v (by have := mem_size hm; omega) (hf v hm) fun a ha => hv a ((mem_addrsAll a vs).2 ⟨v, hm, ha⟩)
  have vals : ∀ kvs : List (Str × Val), sizeOf kvs < sizeOf g → finiteVals kvs = true → (∀ a ∈ addrsVals kvs, finite (d a) = true) →
      finiteVals (expandVals d kvs) = true := by
    intro kvs hs hf hv
    rw [expandVals_eq, finiteVals_iff]
    rw [finiteVals_iff] at hf
    simp only [List.mem_map]
    rintro _ ⟨p, hm, rfl⟩
    exact ih p.2 (by have := mem_size_kv hm; omega) (hf p hm) fun a ha => hv a ((mem_addrsVals a kvs).2 ⟨p, hm, ha⟩)
  cases g with
  | prim | absent | nullptr => exact h
  | seq vs | tup vs | set vs | obj vs => simp only [expand, finite] at *; exact all vs (by simp) h hd
  | map kvs | dict kvs => simp only [expand, finite] at *; exact vals kvs (by simp) h hd
  | alt i v => simp only [expand, finite] at *; exact ih v (by simp; omega) h hd
  | present v | uptr v => simp only [expand, finite] at *; exact ih v (by simp) h hd
  | sptr a v => simp only [expand, finite]; exact hd a (by simp [addrs])

theorem finite_whole (env : Env) (H : Heap) (hH : H.Fine env) {a : Nat} (h : Acc (Edge H) a) : finite (whole H a) = true := by
  induction h with
  | intro a hacc ih =>
    rw [whole_unfold (.intro a hacc)]
    refine finite_expand _ _ ?_ fun b hb => ih b hb
    unfold content
    cases ha : H a with
    | none => rfl
    | some p => exact (hH a p.1 p.2 ha).2

theorem finite_object (env : Env) (H : Heap) (hH : H.Fine env) (n : Nat) : ∀ a, finite (object H n a) = true := by
  induction n with
  | zero => intro a; rfl
  | succ n ih =>
    intro a
    rw [object]
    refine finite_expand _ _ ?_ fun b _ => ih b
    unfold content
    cases ha : H a with
    | none => rfl
    | some p => exact (hH a p.1 p.2 ha).2

/-! ## Returning means that there is no cycle -/

/-- All objects in the table are complete. -/
def Complete (H : Heap) (σ : STab) : Prop := ∀ a ∈ σ.keys, Acc (Edge H) a

/-- If DOM serialization returns then it succeeds, and no cycle is reached. -/
def SerAcc (env : Env) (H : Heap) (n : Nat) (g : Val) : Prop :=
  ∀ t segs σ σ' r, GTy env H g t → finite g = true → Complete H σ → ser env (unfold H n g) t segs σ = .done σ' r →
    r.isSome = true ∧ (∀ a ∈ addrs g, Acc (Edge H) a) ∧ Complete H σ'

theorem serAcc_items (env : Env) (H : Heap) (n : Nat) (gs : List Val) (hg : ∀ g ∈ gs, SerAcc env H n g) :
    ∀ ts k segs σ σ' r, GTys env H gs ts → finiteAll gs = true → Complete H σ →
      serItems env (expandAll (object H n) gs) ts k segs σ = .done σ' r →
      r.isSome = true ∧ (∀ a ∈ addrsAll gs, Acc (Edge H) a) ∧ Complete H σ' := by
  induction gs with
  | nil =>
    intro ts k segs σ σ' r ht hf hσ h
    cases ts with
    | cons => simp [GTys] at ht
    | nil =>
      simp only [expandAll, serItems, SRes.done.injEq] at h
      obtain ⟨rfl, rfl⟩ := h
      exact ⟨rfl, by simp [addrsAll], hσ⟩
  | cons g gs ih =>
    intro ts k segs σ σ' r ht hf hσ h
    cases ts with
    | nil => simp [GTys] at ht
    | cons t ts =>
      simp only [GTys] at ht
      simp only [finiteAll, Bool.and_eq_true] at hf
      simp only [expandAll, serItems] at h
      cases h1 : ser env (expand (object H n) g) t (.index k :: segs) σ with
      | ub => simp [h1] at h
      | done σ1 r1 =>
        obtain ⟨a1, a2, a3⟩ := hg g (by simp) _ _ _ _ _ ht.1 hf.1 hσ h1
        cases r1 with
        | none => simp at a1
        | some j =>
          simp only [h1] at h
          cases h2 : serItems env (expandAll (object H n) gs) ts (k + 1) segs σ1 with
          | ub => simp [h2, SRes.map] at h
          | done σ2 r2 =>
            simp only [h2, SRes.map, SRes.done.injEq] at h
            obtain ⟨rfl, rfl⟩ := h
            obtain ⟨b1, b2, b3⟩ := ih (fun w hw => hg w (by simp [hw])) _ _ _ _ _ _ ht.2 hf.2 a3 h2
            refine ⟨by simpa using b1, ?_, b3⟩
            intro a ha
            simp only [addrsAll, List.mem_append] at ha
            exact ha.elim (a2 a) (b2 a)

theorem serAcc_set (env : Env) (H : Heap) (n : Nat) (t : Ty) (gs : List Val) (hg : ∀ g ∈ gs, SerAcc env H n g) :
    ∀ segs σ σ' r, GAll env H gs t → finiteAll gs = true → Complete H σ →
      serSet env (expandAll (object H n) gs) t segs σ = .done σ' r →
      r.isSome = true ∧ (∀ a ∈ addrsAll gs, Acc (Edge H) a) ∧ Complete H σ' := by
  induction gs with
  | nil =>
    intro segs σ σ' r ht hf hσ h
    simp only [expandAll, serSet, SRes.done.injEq] at h
    obtain ⟨rfl, rfl⟩ := h
    exact ⟨rfl, by simp [addrsAll], hσ⟩
  | cons g gs ih =>
    intro segs σ σ' r ht hf hσ h
    simp only [GAll] at ht
    simp only [finiteAll, Bool.and_eq_true] at hf
    simp only [expandAll, serSet] at h
    cases h1 : ser env (expand (object H n) g) t segs σ with
    | ub => simp [h1] at h
    | done σ1 r1 =>
      obtain ⟨a1, a2, a3⟩ := hg g (by simp) _ _ _ _ _ ht.1 hf.1 hσ h1
      cases r1 with
      | none => simp at a1
      | some j =>
        simp only [h1] at h
        cases h2 : serSet env (expandAll (object H n) gs) t segs σ1 with
        | ub => simp [h2, SRes.map] at h
        | done σ2 r2 =>
          simp only [h2, SRes.map, SRes.done.injEq] at h
          obtain ⟨rfl, rfl⟩ := h
          obtain ⟨b1, b2, b3⟩ := ih (fun w hw => hg w (by simp [hw])) _ _ _ _ ht.2 hf.2 a3 h2
          refine ⟨by simpa using b1, ?_, b3⟩
          intro a ha
          simp only [addrsAll, List.mem_append] at ha
          exact ha.elim (a2 a) (b2 a)

theorem serAcc_entries (env : Env) (H : Heap) (n : Nat) (t : Ty) (kgs : List (Str × Val)) (hg : ∀ p ∈ kgs, SerAcc env H n p.2) :
    ∀ segs σ σ' r, (∀ p ∈ kgs, GTy env H p.2 t) → (∀ p ∈ kgs, finite p.2 = true) → Complete H σ →
      serEntries (kgs.map fun p => (p.1, ser env (unfold H n p.2) t)) segs σ = .done σ' r →
      r.isSome = true ∧ (∀ p ∈ kgs, ∀ a ∈ addrs p.2, Acc (Edge H) a) ∧ Complete H σ' := by
  induction kgs with
  | nil =>
    intro segs σ σ' r ht hf hσ h
    simp only [List.map_nil, serEntries, SRes.done.injEq] at h
    obtain ⟨rfl, rfl⟩ := h
    exact ⟨rfl, by simp, hσ⟩
  | cons p kgs ih =>
    obtain ⟨key, g⟩ := p
    intro segs σ σ' r ht hf hσ h
    simp only [List.map_cons, serEntries] at h
    cases h1 : ser env (unfold H n g) t (Seg.name key :: segs) σ with
    | ub => simp [h1] at h
    | done σ1 r1 =>
      obtain ⟨a1, a2, a3⟩ := hg (key, g) (by simp) _ _ _ _ _ (ht _ (by simp)) (hf _ (by simp)) hσ h1
      cases r1 with
      | none => simp at a1
      | some j =>
        simp only [h1] at h
        cases h2 : serEntries (kgs.map fun p => (p.1, ser env (unfold H n p.2) t)) segs σ1 with
        | ub => simp [h2, SRes.map] at h
        | done σ2 r2 =>
          simp only [h2, SRes.map, SRes.done.injEq] at h
          obtain ⟨rfl, rfl⟩ := h
          obtain ⟨b1, b2, b3⟩ := ih (fun w hw => hg w (by simp [hw])) _ _ _ _ (fun w hw => ht w (by simp [hw])) (fun w hw => hf w (by simp [hw])) a3 h2
          refine ⟨by simpa using b1, ?_, b3⟩
          intro p hp
          rcases List.mem_cons.1 hp with rfl | hp
          · exact a2
          · exact b2 p hp

theorem serAcc_members (env : Env) (H : Heap) (n : Nat) (gs : List Val) (hg : ∀ g, sizeOf g < 1 + sizeOf gs → SerAcc env H n g) :
    ∀ ms segs σ σ' r, GMembers env H gs ms → finiteAll gs = true → Complete H σ →
      serMembers env (expandAll (object H n) gs) ms segs σ = .done σ' r →
      r.isSome = true ∧ (∀ a ∈ addrsAll gs, Acc (Edge H) a) ∧ Complete H σ' := by
  induction gs with
  | nil =>
    intro ms segs σ σ' r ht hf hσ h
    cases ms with
    | cons => simp [GMembers] at ht
    | nil =>
      simp only [expandAll, serMembers, SRes.done.injEq] at h
      obtain ⟨rfl, rfl⟩ := h
      exact ⟨rfl, by simp [addrsAll], hσ⟩
  | cons g gs ih =>
    intro ms segs σ σ' r ht hf hσ h
    have ih' := ih (fun w hw => hg w (by simp only [List.cons.sizeOf_spec]; omega))
    cases ms with
    | nil => simp [GMembers] at ht
    | cons m ms =>
      rw [GMembers_cons] at ht
      simp only [finiteAll, Bool.and_eq_true] at hf
      rw [expandAll, serMembers_cons, fieldOf_expand] at h
      cases hk : fieldOf m.kind g with
      | bad => simp [hk] at ht
      | skip =>
        simp only [hk] at h
        obtain ⟨-, rfl⟩ := fieldOf_skip hk
        simpa [addrsAll, addrs] using ih' ms segs σ σ' r ht.2 hf.2 hσ h
      | here w =>
        simp only [hk] at h ht
        have hw : SerAcc env H n w := hg w (by have := fieldOf_size hk; simp only [List.cons.sizeOf_spec]; omega)
        cases h1 : ser env (expand (object H n) w) m.ty (Seg.name m.name :: segs) σ with
        | ub => simp [h1] at h
        | done σ1 r1 =>
          obtain ⟨a1, a2, a3⟩ := hw _ _ _ _ _ ht.1 (by rw [← finite_field hk]; exact hf.1) hσ h1
          cases r1 with
          | none => simp at a1
          | some j =>
            simp only [h1] at h
            cases h2 : serMembers env (expandAll (object H n) gs) ms segs σ1 with
            | ub => simp [h2, SRes.map] at h
            | done σ2 r2 =>
              simp only [h2, SRes.map, SRes.done.injEq] at h
              obtain ⟨rfl, rfl⟩ := h
              obtain ⟨b1, b2, b3⟩ := ih' _ _ _ _ _ ht.2 hf.2 a3 h2
              refine ⟨by simpa using b1, ?_, b3⟩
              intro a ha
              simp only [addrsAll, List.mem_append, addrs_field hk] at ha
              exact ha.elim (a2 a) (b2 a)

theorem smap_done {α β : Type} {f : α → β} {x : SRes α} {σ : STab} {r : Option β} (h : x.map f = .done σ r) :
    ∃ r', x = .done σ r' ∧ r = r'.map f := by
  cases x with
  | ub => cases h
  | done σ1 r1 => cases h; exact ⟨r1, rfl, rfl⟩

theorem ser_acc (env : Env) (hfair : env.Fair) (H : Heap) (hH : H.Fine env) (n : Nat) : ∀ g, SerAcc env H n g := by
  induction n using Nat.strongRecOn with
  | ind n ihn =>
    apply Val.strong
    intro g ih t segs σ σ' r hg hf hσ h
    unfold GTy at hg
    split at hg
    · rename_i p k
      obtain ⟨j, hj⟩ := serPrim_ok env p k hg hf
      simp only [unfold, expand, ser, hj, SRes.done.injEq] at h
      obtain ⟨rfl, rfl⟩ := h
      exact ⟨rfl, by simp [addrs], hσ⟩
    · rename_i vs t
      simp only [unfold, expand, ser] at h
      obtain ⟨r', h1, rfl⟩ := smap_done h
      have hl : (expandAll (object H n) vs).length = vs.length := by simp [expandAll_eq]
      rw [hl] at h1
      obtain ⟨a1, a2, a3⟩ := serAcc_items env H n vs (fun w hw => ih w (by have := mem_size hw; simp; omega)) _ _ _ _ _ _
        (GTys_replicate env H vs t hg) hf hσ h1
      exact ⟨by simpa using a1, a2, a3⟩
    · rename_i vs m t
      obtain ⟨rfl, hg⟩ := hg
      have hl : (expandAll (object H n) vs).length = vs.length := by simp [expandAll_eq]
      simp only [unfold, expand, ser, hl, if_true] at h
      obtain ⟨r', h1, rfl⟩ := smap_done h
      obtain ⟨a1, a2, a3⟩ := serAcc_items env H n vs (fun w hw => ih w (by have := mem_size hw; simp; omega)) _ _ _ _ _ _
        (GTys_replicate env H vs t hg) hf hσ h1
      exact ⟨by simpa using a1, a2, a3⟩
    · rename_i vs ts
      simp only [unfold, expand, ser] at h
      obtain ⟨r', h1, rfl⟩ := smap_done h
      obtain ⟨a1, a2, a3⟩ := serAcc_items env H n vs (fun w hw => ih w (by have := mem_size hw; simp; omega)) _ _ _ _ _ _ hg hf hσ h1
      exact ⟨by simpa using a1, a2, a3⟩
    · rename_i vs t
      simp only [unfold, expand, ser] at h
      obtain ⟨r', h1, rfl⟩ := smap_done h
      obtain ⟨a1, a2, a3⟩ := serAcc_set env H n t vs (fun w hw => ih w (by have := mem_size hw; simp; omega)) _ _ _ _ hg.1 hf hσ h1
      exact ⟨by simpa using a1, a2, a3⟩
    · rename_i kvs o t
      obtain ⟨hg, hasc⟩ := hg
      rw [GVals_iff] at hg
      have hf' := (finiteVals_iff kvs).1 hf
      have hperm := iterate_perm env hfair o segs kvs hasc.nodup
      simp only [unfold, expand, ser, expandVals_eq, serVals_eq, List.map_map] at h
      obtain ⟨r', h1, rfl⟩ := smap_done h
      rw [show ((fun p : Str × Val => (p.1, ser env p.2 t)) ∘ fun p : Str × Val => (p.1, expand (object H n) p.2)) =
        fun p => (p.1, ser env (unfold H n p.2) t) from rfl, iterate_map (g := fun p => ser env (unfold H n p.2) t)] at h1
      obtain ⟨a1, a2, a3⟩ := serAcc_entries env H n t _ (fun p hp => ih p.2 (by have := mem_size_kv (hperm.mem_iff.1 hp); simp; omega)) _ _ _ _
        (fun p hp => hg p (hperm.mem_iff.1 hp)) (fun p hp => hf' p (hperm.mem_iff.1 hp)) hσ h1
      refine ⟨by simpa using a1, ?_, a3⟩
      intro a ha
      obtain ⟨p, hp, ha⟩ := (mem_addrsVals a kvs).1 ha
      exact a2 p (hperm.mem_iff.2 hp) a ha
    · rename_i kvs t
      rw [GVals_iff] at hg
      have hf' := (finiteVals_iff kvs).1 hf
      simp only [unfold, expand, ser, expandVals_eq, serVals_eq, List.map_map] at h
      obtain ⟨r', h1, rfl⟩ := smap_done h
      obtain ⟨a1, a2, a3⟩ := serAcc_entries env H n t kvs (fun p hp => ih p.2 (by have := mem_size_kv hp; simp; omega)) _ _ _ _
        hg hf' hσ h1
      refine ⟨by simpa using a1, ?_, a3⟩
      intro a ha
      obtain ⟨p, hp, ha⟩ := (mem_addrsVals a kvs).1 ha
      exact a2 p hp a ha
    · rename_i i v ts
      obtain ⟨t, h1, h2⟩ := hg
      simp only [unfold, expand, ser, h1] at h
      exact ih v (by simp; omega) t segs σ σ' r h2 hf hσ h
    · rename_i vs c
      simp only [unfold, expand, ser] at h
      obtain ⟨r', h1, rfl⟩ := smap_done h
      obtain ⟨a1, a2, a3⟩ := serAcc_members env H n vs (fun w hw => ih w (by simp; omega)) _ _ _ _ _ hg hf hσ h1
      exact ⟨by simpa using a1, a2, a3⟩
    · rename_i v t
      simp only [unfold, expand, ser] at h
      exact ih v (by simp) t segs σ σ' r hg hf hσ h
    · rename_i a v t
      obtain ⟨rfl, w, ha⟩ := hg
      simp only [unfold, expand, ser] at h
      cases hget : σ.get a with
      | some s =>
        simp only [hget, SRes.done.injEq] at h
        obtain ⟨rfl, rfl⟩ := h
        refine ⟨rfl, ?_, hσ⟩
        intro b hb
        simp only [addrs, List.mem_singleton] at hb
        subst hb
        obtain ⟨l1, l2, rfl, -⟩ := List.lookup_eq_some_iff.1 hget
        exact hσ b (by simp [STab.keys])
      | none =>
        simp only [hget] at h
        cases n with
        | zero =>
          have : ser env (object H 0 a) t segs σ = .ub := by unfold object ser; rfl
          simp [this] at h
        | succ m =>
          have hc : object H (m + 1) a = unfold H m w := by simp [object, content, ha, unfold]
          rw [hc] at h
          cases h1 : ser env (unfold H m w) t segs σ with
          | ub => simp [h1] at h
          | done σ1 r1 =>
            obtain ⟨a1, a2, a3⟩ := ihn m (by omega) w t segs σ σ1 r1 (hH a t w ha).1 (hH a t w ha).2 hσ h1
            cases r1 with
            | none => simp at a1
            | some j =>
              simp only [h1, SRes.done.injEq] at h
              obtain ⟨rfl, rfl⟩ := h
              have hacc : Acc (Edge H) a := .intro a fun b hb => a2 b (by simpa [Edge, content, ha] using hb)
              refine ⟨rfl, ?_, ?_⟩
              · intro b hb
                simp only [addrs, List.mem_singleton] at hb
                subst hb
                exact hacc
              · intro b hb
                unfold STab.put at hb
                split at hb
                · exact a3 b hb
                · simp only [STab.keys, List.map_cons, List.mem_cons] at hb
                  rcases hb with rfl | hb
                  · exact hacc
                  · exact a3 b hb
    · exact hg.elim

/-! ## The writer -/

theorem serPrim_fail {env : Env} {k : Prim} {p : PVal} (h : serPrim env k p = .fail) : finite (.prim p) = false := by
  cases p with
  | date y m d =>
    cases k with
    | date => rw [serPrim_date] at h; split at h <;> cases h
    | _ => cases h
  | flt f =>
    cases k with
    | flt t =>
      rw [serPrim_flt] at h
      split at h
      · cases h
      · rename_i hf; simpa [finite] using hf
    | _ => cases h
  | _ => cases k <;> cases h

/-- On finite values the writer does not return `false`. -/
def WrFin (env : Env) (v : Val) : Prop :=
  ∀ t segs σ σ' es, finite v = true → wr env v t segs σ ≠ .done σ' false es

theorem wrFin_items (env : Env) (vs : List Val) (hv : ∀ v ∈ vs, WrFin env v) :
    ∀ ts k segs σ σ' es, finiteAll vs = true → wrItems env vs ts k segs σ ≠ .done σ' false es := by
  induction vs with
  | nil => intro ts k segs σ σ' es _ h; cases ts <;> simp [wrItems] at h
  | cons v vs ih =>
    intro ts k segs σ σ' es hf h
    cases ts with
    | nil => simp [wrItems] at h
    | cons t ts =>
      simp only [finiteAll, Bool.and_eq_true] at hf
      simp only [wrItems] at h
      cases h1 : wr env v t (.index k :: segs) σ with
      | ub => simp [h1] at h
      | done σ1 ok es1 =>
        cases ok with
        | false => exact hv v (by simp) _ _ _ _ _ hf.1 h1
        | true =>
          simp only [h1] at h
          obtain ⟨es2, h2, -⟩ := before_eq h
          exact ih (fun w hw => hv w (by simp [hw])) _ _ _ _ _ _ hf.2 h2

theorem wrFin_set (env : Env) (t : Ty) (vs : List Val) (hv : ∀ v ∈ vs, WrFin env v) :
    ∀ segs σ σ' es, finiteAll vs = true → wrSet env vs t segs σ ≠ .done σ' false es := by
  induction vs with
  | nil => intro segs σ σ' es _ h; simp [wrSet] at h
  | cons v vs ih =>
    intro segs σ σ' es hf h
    simp only [finiteAll, Bool.and_eq_true] at hf
    simp only [wrSet] at h
    cases h1 : wr env v t segs σ with
    | ub => simp [h1] at h
    | done σ1 ok es1 =>
      cases ok with
      | false => exact hv v (by simp) _ _ _ _ _ hf.1 h1
      | true =>
        simp only [h1] at h
        obtain ⟨es2, h2, -⟩ := before_eq h
        exact ih (fun w hw => hv w (by simp [hw])) _ _ _ _ hf.2 h2

theorem wrFin_entries (env : Env) (t : Ty) (kvs : List (Str × Val)) (hv : ∀ p ∈ kvs, WrFin env p.2) :
    ∀ segs σ σ' es, (∀ p ∈ kvs, finite p.2 = true) → writeEntries (kvs.map fun p => (p.1, wr env p.2 t)) segs σ ≠ .done σ' false es := by
  induction kvs with
  | nil => intro segs σ σ' es _ h; simp [writeEntries] at h
  | cons p kvs ih =>
    obtain ⟨key, v⟩ := p
    intro segs σ σ' es hf h
    simp only [List.map_cons, writeEntries] at h
    cases h1 : wr env v t (Seg.name key :: segs) σ with
    | ub => simp [h1] at h
    | done σ1 ok es1 =>
      cases ok with
      | false => exact hv (key, v) (by simp) _ _ _ _ _ (hf _ (by simp)) h1
      | true =>
        simp only [h1] at h
        obtain ⟨es2, h2, -⟩ := before_eq h
        exact ih (fun w hw => hv w (by simp [hw])) _ _ _ _ (fun w hw => hf w (by simp [hw])) h2

theorem wrFin_members (env : Env) (vs : List Val) (hv : ∀ v, sizeOf v < 1 + sizeOf vs → WrFin env v) :
    ∀ ms segs σ σ' es, finiteAll vs = true → wrMembers env vs ms segs σ ≠ .done σ' false es := by
  induction vs with
  | nil => intro ms segs σ σ' es _ h; cases ms <;> simp [wrMembers] at h
  | cons v vs ih =>
    intro ms segs σ σ' es hf h
    have ih' := ih (fun w hw => hv w (by simp only [List.cons.sizeOf_spec]; omega))
    cases ms with
    | nil => simp [wrMembers] at h
    | cons m ms =>
      simp only [finiteAll, Bool.and_eq_true] at hf
      rw [wrMembers_cons] at h
      cases hk : fieldOf m.kind v with
      | bad => simp [hk] at h
      | skip => simp only [hk] at h; exact ih' _ _ _ _ _ hf.2 h
      | here w =>
        simp only [hk] at h
        have hw : WrFin env w := hv w (by have := fieldOf_size hk; simp only [List.cons.sizeOf_spec]; omega)
        cases h1 : wr env w m.ty (Seg.name m.name :: segs) σ with
        | ub => simp [h1] at h
        | done σ1 ok es1 =>
          cases ok with
          | false => exact hw _ _ _ _ _ (by rw [← finite_field hk]; exact hf.1) h1
          | true =>
            simp only [h1] at h
            obtain ⟨es2, h2, -⟩ := before_eq h
            exact ih' _ _ _ _ _ hf.2 h2

theorem wr_fin (env : Env) : ∀ v, WrFin env v := by
  apply Val.strong
  intro v ih t segs σ σ' es hf h
  unfold wr at h
  split at h
  · rename_i p k
    cases hp : serPrim env k p with
    | ub => simp [hp] at h
    | fail => rw [serPrim_fail hp] at hf; cases hf
    | ok j => simp [hp] at h
  · rename_i vs t
    obtain ⟨es2, h2, -⟩ := before_eq (close_false h)
    exact wrFin_items env vs (fun w hw => ih w (by have := mem_size hw; simp; omega)) _ _ _ _ _ _ hf h2
  · rename_i vs n t
    split at h
    · obtain ⟨es2, h2, -⟩ := before_eq (close_false h)
      exact wrFin_items env vs (fun w hw => ih w (by have := mem_size hw; simp; omega)) _ _ _ _ _ _ hf h2
    · simp at h
  · rename_i vs ts
    obtain ⟨es2, h2, -⟩ := before_eq (close_false h)
    exact wrFin_items env vs (fun w hw => ih w (by have := mem_size hw; simp; omega)) _ _ _ _ _ _ hf h2
  · rename_i vs t
    obtain ⟨es2, h2, -⟩ := before_eq (close_false h)
    exact wrFin_set env t vs (fun w hw => ih w (by have := mem_size hw; simp; omega)) _ _ _ _ hf h2
  · rename_i kvs o t
    obtain ⟨es2, h2, -⟩ := before_eq (close_false h)
    rw [wrVals_eq, iterate_map (g := fun p => wr env p.2 t)] at h2
    have hsub : ∀ p ∈ iterate env o segs kvs, p ∈ kvs := by
      intro p hp
      unfold iterate at hp
      split at hp
      · exact hp
      · unfold inOrder at hp
        simp only [List.mem_filterMap, Option.map_eq_some_iff] at hp
        obtain ⟨k, -, a, ha, rfl⟩ := hp
        obtain ⟨l1, l2, rfl, -⟩ := List.lookup_eq_some_iff.1 ha
        simp
    exact wrFin_entries env t _ (fun p hp => ih p.2 (by have := mem_size_kv (hsub p hp); simp; omega)) _ _ _ _
      (fun p hp => (finiteVals_iff kvs).1 hf p (hsub p hp)) h2
  · rename_i kvs t
    obtain ⟨es2, h2, -⟩ := before_eq (close_false h)
    rw [wrVals_eq] at h2
    exact wrFin_entries env t _ (fun p hp => ih p.2 (by have := mem_size_kv hp; simp; omega)) _ _ _ _ ((finiteVals_iff kvs).1 hf) h2
  · rename_i i w ts
    split at h
    · exact ih w (by simp; omega) _ _ _ _ _ hf h
    · simp at h
  · rename_i vs c
    obtain ⟨es2, h2, -⟩ := before_eq (close_false h)
    exact wrFin_members env vs (fun w hw => ih w (by simp; omega)) _ _ _ _ _ hf h2
  · rename_i w t
    exact ih w (by simp) _ _ _ _ _ hf h
  · rename_i a w t
    cases hg : σ.get a with
    | some s => simp [hg] at h
    | none =>
      simp only [hg] at h
      cases hw : wr env w t segs σ with
      | ub => simp [hw] at h
      | done σ1 ok es1 =>
        cases ok with
        | true => simp [hw] at h
        | false => exact ih w (by simp; omega) _ _ _ _ _ hf hw
  · simp at h

end Verif.Core
