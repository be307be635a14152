import Verif.Cost
import Verif.ParseBack

/-!
# The size of documents

How many nodes the document of a value has, in terms of the object graph: the root and each shared object once.
-/

namespace Verif.Core

mutual
/-- The nodes of a value without the contents of shared objects; a pointer to a shared object counts as the reference
`{"$ref": "…"}`, an object and a string (specification). -/
def ownNodes : Val → Nat
  | .prim _ => 1
  | .seq vs => 1 + ownAll vs
  | .tup vs => 1 + ownAll vs
  | .set vs => 1 + ownAll vs
  | .map kvs => 1 + ownVals kvs
  | .dict kvs => 1 + ownVals kvs
  | .alt _ v => ownNodes v
  | .obj vs => 1 + ownAll vs
  | .absent => 0
  | .present v => ownNodes v
  | .nullptr => 0
  | .uptr v => ownNodes v
  | .sptr _ _ => 2

/-- `ownNodes` for lists. -/
def ownAll : List Val → Nat
  | [] => 0
  | v :: vs => ownNodes v + ownAll vs

/-- `ownNodes` for the values of a map. -/
def ownVals : List (Str × Val) → Nat
  | [] => 0
  | (_, v) :: kvs => ownNodes v + ownVals kvs
end

/-- The nodes of the object at an address. -/
def ownAt (H : Heap) (a : Nat) : Nat :=
  match H a with
  | some (_, v) => ownNodes v
  | none => 0

/-- The nodes of the objects at some addresses. -/
def ownSum (H : Heap) (as : List Nat) : Nat := (as.map (ownAt H)).sum

theorem ownSum_append (H : Heap) (as bs : List Nat) : ownSum H (as ++ bs) = ownSum H as + ownSum H bs := by
  simp [ownSum]

theorem ownSum_perm (H : Heap) {as bs : List Nat} (h : as.Perm bs) : ownSum H as = ownSum H bs := (h.map _).sum_eq

theorem ownVals_perm {k1 k2 : List (Str × Val)} (h : k1.Perm k2) : ownVals k1 = ownVals k2 := by
  induction h with
  | nil => rfl
  | cons p _ ih => cases p; simp [ownVals, ih]
  | swap p q _ => cases p; cases q; simp only [ownVals]; omega
  | trans _ _ h1 h2 => rw [h1, h2]

/-- The number of nodes of a document that shows a value. -/
def Counted (env : Env) (H : Heap) (v : Val) : Prop :=
  ∀ t pos j tr, Shows env v t pos j tr → HasTy env H v t → nodes j + 2 * (fulls tr).length = ownNodes v + ownSum H (fulls tr)

theorem leaf_nodes (env : Env) (k : Prim) (p : PVal) (j : Json) (h : serPrim env k p = .ok j) : nodes j = 1 := by
  cases k <;> cases p <;> first | (cases h; rfl) | cases h | skip
  · rw [serPrim_flt] at h
    split at h
    · cases h; rfl
    · cases h
  · rw [serPrim_date] at h
    split at h
    · cases h; rfl
    · cases h

theorem counted_items (env : Env) (H : Heap) (vs : List Val) (hv : ∀ v ∈ vs, Counted env H v) :
    ∀ ts pos k js tr, ShowsItems env vs ts pos k js tr → HasTys env H vs ts → nodesAll js + 2 * (fulls tr).length = ownAll vs + ownSum H (fulls tr) := by
  induction vs with
  | nil => intro ts pos k js tr h _; cases h; rfl
  | cons v vs ih =>
    intro ts pos k js tr h ht
    cases h with
    | cons s1 s2 =>
      have h1 := hv v (by simp) _ _ _ _ s1 ht.1
      have h2 := ih (fun w hw => hv w (by simp [hw])) _ _ _ _ _ s2 ht.2
      rw [nodesAll, ownAll, fulls_append, ownSum_append, List.length_append]
      omega

theorem counted_vals (env : Env) (H : Heap) (kvs : List (Str × Val)) (hv : ∀ p ∈ kvs, Counted env H p.2) :
    ∀ t pos k js tr, ShowsVals env kvs t pos k js tr → (∀ p ∈ kvs, HasTy env H p.2 t) → nodesFields js + 2 * (fulls tr).length = ownVals kvs + ownSum H (fulls tr) := by
  induction kvs with
  | nil => intro ts pos k js tr h _; cases h; rfl
  | cons p kvs ih =>
    intro t pos k js tr h ht
    cases h with
    | @cons key v _ _ _ _ _ _ _ _ s1 s2 =>
      have h1 := hv (key, v) (by simp) _ _ _ _ s1 (ht (key, v) (by simp))
      have h2 := ih (fun w hw => hv w (by simp [hw])) _ _ _ _ _ s2 (fun w hw => ht w (by simp [hw]))
      rw [nodesFields, ownVals, fulls_append, ownSum_append, List.length_append]
      simp only at h1
      omega

theorem counted_members (env : Env) (H : Heap) (vs : List Val) (hv : ∀ w, sizeOf w < 1 + sizeOf vs → Counted env H w) :
    ∀ ms pos k js tr, ShowsMembers env vs ms pos k js tr → MembersTy env H vs ms → nodesFields js + 2 * (fulls tr).length = ownAll vs + ownSum H (fulls tr) := by
  induction vs with
  | nil => intro ts pos k js tr h _; cases h; rfl
  | cons v vs ih =>
    intro ts pos k js tr h ht
    have ih' := ih (fun w hw => hv w (by simp only [List.cons.sizeOf_spec]; omega))
    cases h with
    | skip _ s =>
      rw [MembersTy_cons] at ht
      have := ih' _ _ _ _ _ s ht.2
      rw [ownAll, ownNodes]
      omega
    | @engaged w _ m _ _ _ _ _ _ _ hk s1 s2 =>
      have hfield : fieldOf m.kind (.present w) = .here w := by rw [hk]; rfl
      rw [MembersTy_cons, hfield] at ht
      have h1 := hv _ (by simp only [List.cons.sizeOf_spec, Val.present.sizeOf_spec]; omega) _ _ _ _ s1 ht.1
      have h2 := ih' _ _ _ _ _ s2 ht.2
      rw [nodesFields, ownAll, ownNodes, fulls_append, ownSum_append, List.length_append]
      omega
    | @plain _ _ m _ _ _ _ _ _ _ hk s1 s2 =>
      have hfield : fieldOf m.kind v = .here v := by
        cases hkk : m.kind <;> first | exact absurd hkk hk | rfl
      rw [MembersTy_cons, hfield] at ht
      have h1 := hv _ (by simp only [List.cons.sizeOf_spec]; omega) _ _ _ _ s1 ht.1
      have h2 := ih' _ _ _ _ _ s2 ht.2
      rw [nodesFields, ownAll, fulls_append, ownSum_append, List.length_append]
      omega

theorem counted (env : Env) (H : Heap) : ∀ v, Counted env H v := by
  apply Val.strong
  intro v ih t pos j tr hs ht
  cases hs with
  | prim h => rw [leaf_nodes env _ _ _ h]; rfl
  | vec s =>
    have := counted_items env H _ (fun w hw => ih w (by have := mem_size hw; simp; omega)) _ _ _ _ _ s (HasTys_replicate _ _ _ _ ht)
    rw [nodes, ownNodes]; omega
  | arr s =>
    obtain ⟨rfl, ht⟩ := ht
    have := counted_items env H _ (fun w hw => ih w (by have := mem_size hw; simp; omega)) _ _ _ _ _ s (HasTys_replicate _ _ _ _ ht)
    rw [nodes, ownNodes]; omega
  | tuple s =>
    have := counted_items env H _ (fun w hw => ih w (by have := mem_size hw; simp; omega)) _ _ _ _ _ s ht
    rw [nodes, ownNodes]; omega
  | set s =>
    have := counted_items env H _ (fun w hw => ih w (by have := mem_size hw; simp; omega)) _ _ _ _ _ s (HasTys_replicate _ _ _ _ ht.1)
    rw [nodes, ownNodes]; omega
  | map hperm _ s =>
    have hk := (ValsTy_iff _ _ _ _).1 ht.1
    have := counted_vals env H _ (fun w hw => ih w.2 (by have := mem_size_kv (hperm.mem_iff.1 hw); simp; omega)) _ _ _ _ _ s (fun w hw => hk w (hperm.mem_iff.1 hw))
    rw [nodes, ownNodes, ← ownVals_perm hperm]; omega
  | dict s =>
    have := counted_vals env H _ (fun w hw => ih w.2 (by have := mem_size_kv hw; simp; omega)) _ _ _ _ _ s ((ValsTy_iff _ _ _ _).1 ht)
    rw [nodes, ownNodes]; omega
  | alt h s =>
    obtain ⟨t', h1, h2⟩ := ht
    rw [h] at h1
    cases h1
    rw [ownNodes]
    exact ih _ (by simp; omega) _ _ _ _ s h2
  | cls s =>
    have := counted_members env H _ (fun w hw => ih w (by simp; omega)) _ _ _ _ _ s ht
    rw [nodes, ownNodes]; omega
  | uptr s => rw [ownNodes]; exact ih _ (by simp) _ _ _ _ s ht
  | @full a v t _ _ tr s =>
    have h1 := ih _ (by simp; omega) _ _ _ _ s ht.2
    have h2 : ownAt H a = ownNodes v := by rw [ownAt, ht.1]
    rw [ownNodes, fulls_append, ownSum_append, List.length_append]
    simp only [fulls, ownSum, List.map_cons, List.map_nil, List.sum_cons, List.sum_nil, List.length_cons, List.length_nil] at h1 ⊢
    omega
  | ref => simp [nodes, nodesFields, fulls, ownNodes, ownSum]

end Verif.Core
