import Verif.Depth
import Verif.RenderLemmas

/-!
# The work of writing

`effort` follows `ser` and counts what it does: one for each call of `serialize` (serialize.hpp:23-28), and `c` for each path segment that is handled on behalf of shared
objects. Segments are handled where a shared object is written for the first time, when `OutputContext::segments` walks to the root (detail/output_context.hpp:42-51, called by
`put` in serialize_pointer.hpp:59), and where it is met again, when `ReferenceTable::get` copies the path (detail/references.hpp:10-18) and `Path::str` spells it
(detail/path.hpp:17-45). With `c = 0` only the calls are counted. Search in the table (`std::map`, logarithmic) and the allocator of the document are not counted.
-/

namespace Verif.Core

/-- The work for some value: path, table of shared objects. -/
abbrev EffortFn := List Seg → STab → Nat

/-- The work of the loop over the entries of a map (`serEntries`; serialize_map.hpp:20-29). -/
def effortEntries : List (Str × EffortFn × SerFn) → List Seg → STab → Nat
  | [], _, _ => 0
  | (k, f, g) :: rest, segs, σ =>
      f (Seg.name k :: segs) σ +
      (match g (Seg.name k :: segs) σ with
      | .done σ' (some _) => effortEntries rest segs σ'
      | _ => 0)

mutual
/-- The work of `serialize(obj, json, context)` (`ser`; serialize.hpp:23-28 and the same places as there); shared pointers serialize_pointer.hpp:38-62. -/
def effort (env : Env) (c : Nat) : Val → Ty → List Seg → STab → Nat
  | .seq vs, .vec t, segs, σ => 1 + effortItems env c vs (List.replicate vs.length t) 0 segs σ
  | .tup vs, .arr n t, segs, σ => 1 + effortItems env c vs (List.replicate n t) 0 segs σ
  | .tup vs, .tuple ts, segs, σ => 1 + effortItems env c vs ts 0 segs σ
  | .set vs, .set t, segs, σ => 1 + effortSet env c vs t segs σ
  | .map kvs, .map ordered t, segs, σ => 1 + effortEntries (iterate env ordered segs (effortVals env c kvs t)) segs σ
  | .dict kvs, .dict t, segs, σ => 1 + effortEntries (effortVals env c kvs t) segs σ
  | .alt i v, .variant ts, segs, σ => 1 +
      match ts[i]? with
      | some t => effort env c v t segs σ
      | none => 0
  | .obj vs, .cls k, segs, σ => 1 + effortMembers env c vs (env.members k) segs σ
  | .uptr v, .uptr t, segs, σ => 1 + effort env c v t segs σ
  | .sptr a v, .sptr t, segs, σ => 1 +
      match σ.get a with
      | some s => c * (2 * s.length)
      | none => effort env c v t segs σ +
          match ser env v t segs σ with
          | .done _ (some _) => c * segs.length
          | _ => 0
  | _, _, _, _ => 1

/-- The work of the loops over elements (`serItems`; serialize_vector.hpp:19-28, serialize_array.hpp:19-28, serialize_tuple.hpp:26-44). -/
def effortItems (env : Env) (c : Nat) : List Val → List Ty → Nat → List Seg → STab → Nat
  | v :: vs, t :: ts, k, segs, σ =>
      effort env c v t (.index k :: segs) σ +
      (match ser env v t (.index k :: segs) σ with
      | .done σ' (some _) => effortItems env c vs ts (k + 1) segs σ'
      | _ => 0)
  | _, _, _, _, _ => 0

/-- The work of the loop of serialize_set.hpp:19-28 (`serSet`). -/
def effortSet (env : Env) (c : Nat) : List Val → Ty → List Seg → STab → Nat
  | [], _, _, _ => 0
  | v :: vs, t, segs, σ =>
      effort env c v t segs σ +
      (match ser env v t segs σ with
      | .done σ' (some _) => effortSet env c vs t segs σ'
      | _ => 0)

/-- The work for the values of a map (`serVals`). -/
def effortVals (env : Env) (c : Nat) : List (Str × Val) → Ty → List (Str × EffortFn × SerFn)
  | [], _ => []
  | (k, v) :: kvs, t => (k, effort env c v t, ser env v t) :: effortVals env c kvs t

/-- The work of `persist` with a `JsonObjectSerializer` (`serMembers`; serialize_object.hpp:20-72): the loop goes on after a member that fails. -/
def effortMembers (env : Env) (c : Nat) : List Val → List Member → List Seg → STab → Nat
  | v :: vs, m :: ms, segs, σ =>
      match m.kind, v with
      | .optional, .absent => effortMembers env c vs ms segs σ
      | .optional, .present w =>
          effort env c w m.ty (Seg.name m.name :: segs) σ +
          (match ser env w m.ty (Seg.name m.name :: segs) σ with
          | .done σ' _ => effortMembers env c vs ms segs σ'
          | _ => 0)
      | .optional, _ => 0
      | _, v =>
          effort env c v m.ty (Seg.name m.name :: segs) σ +
          (match ser env v m.ty (Seg.name m.name :: segs) σ with
          | .done σ' _ => effortMembers env c vs ms segs σ'
          | _ => 0)
  | _, _, _, _ => 0
end

/-- The work of `serialize_to_document` (serialize.hpp:33-52). -/
def effortDocument (env : Env) (c : Nat) (t : Ty) (v : Val) : Nat := effort env c v t [] []

/-! ## Specification -/

mutual
/-- The parts of a value without the contents of shared objects: the values in it and the pointers (specification). -/
def partsOf : Val → Nat
  | .seq vs => 1 + partsAll vs
  | .tup vs => 1 + partsAll vs
  | .set vs => 1 + partsAll vs
  | .map kvs => 1 + partsVals kvs
  | .dict kvs => 1 + partsVals kvs
  | .alt _ v => 1 + partsOf v
  | .obj vs => 1 + partsAll vs
  | .uptr v => 1 + partsOf v
  | .absent => 0
  | .present v => partsOf v
  | _ => 1

/-- The same for components. -/
def partsAll : List Val → Nat
  | [] => 0
  | v :: vs => partsOf v + partsAll vs

/-- The same for the values of a map. -/
def partsVals : List (Str × Val) → Nat
  | [] => 0
  | (_, v) :: kvs => partsOf v + partsVals kvs
end

/-- The parts of the object at an address. -/
def partsAt (H : Heap) (a : Nat) : Nat :=
  match H a with
  | some (_, v) => partsOf v
  | none => 0

/-- The parts of the objects at some addresses, each of them counted as often as its address occurs. -/
def partsSum (H : Heap) (as : List Nat) : Nat := (as.map (partsAt H)).sum

theorem partsSum_append (H : Heap) (l1 l2 : List Nat) : partsSum H (l1 ++ l2) = partsSum H l1 + partsSum H l2 := by
  simp [partsSum, List.sum_append]

theorem partsVals_perm {k1 k2 : List (Str × Val)} (h : k1.Perm k2) : partsVals k1 = partsVals k2 := by
  induction h with
  | nil => rfl
  | cons p _ ih => cases p; simp [partsVals, ih]
  | swap p q _ => cases p; cases q; simp only [partsVals]; omega
  | trans _ _ h1 h2 => rw [h1, h2]

theorem effortVals_eq (env : Env) (c : Nat) (kvs : List (Str × Val)) (t : Ty) :
    effortVals env c kvs t = kvs.map fun p => (p.1, effort env c p.2 t, ser env p.2 t) := by
  induction kvs with
  | nil => simp [effortVals]
  | cons p kvs ih => cases p; simp [effortVals, ih]

theorem effortMembers_cons (env : Env) (c : Nat) (v : Val) (vs : List Val) (m : Member) (ms : List Member) (segs : List Seg) (σ : STab) :
    effortMembers env c (v :: vs) (m :: ms) segs σ =
      match fieldOf m.kind v with
      | .skip => effortMembers env c vs ms segs σ
      | .bad => 0
      | .here w => effort env c w m.ty (Seg.name m.name :: segs) σ +
          match ser env w m.ty (Seg.name m.name :: segs) σ with
          | .done σ' _ => effortMembers env c vs ms segs σ'
          | _ => 0 := by
  obtain ⟨name, kind, ty⟩ := m
  cases kind <;> cases v <;> simp [effortMembers, fieldOf]

/-! ## What a successful write costs -/

/-- Between `p` and `p` times what one part can cost at most. -/
def Costs (c L p e : Nat) : Prop := p ≤ e ∧ e ≤ (1 + c * (2 * L)) * p

theorem Costs.add {c L p q e f : Nat} (h1 : Costs c L p e) (h2 : Costs c L q f) : Costs c L (p + q) (e + f) :=
  ⟨Nat.add_le_add h1.1 h2.1, by rw [Nat.mul_add]; exact Nat.add_le_add h1.2 h2.2⟩

theorem Costs.zero (c L : Nat) : Costs c L 0 0 := ⟨Nat.le_refl _, by simp⟩

theorem Costs.one (c L : Nat) : Costs c L 1 1 := ⟨Nat.le_refl _, by simp⟩

theorem Costs.path (c L n : Nat) (h : n ≤ 2 * L) : Costs c L 1 (1 + c * n) :=
  ⟨by omega, by rw [Nat.mul_one]; exact Nat.add_le_add_left (Nat.mul_le_mul_left c h) 1⟩

/-- All recorded paths have at most `L` segments. -/
def STab.Short (L : Nat) (σ : STab) : Prop := ∀ p ∈ σ, p.2.length ≤ L

theorem Short_append {L : Nat} {σ τ : STab} (h1 : STab.Short L σ) (h2 : STab.Short L τ) : STab.Short L (σ ++ τ) := by
  intro p hp
  rcases List.mem_append.1 hp with h | h
  · exact h1 p h
  · exact h2 p h

theorem keys_append (σ τ : STab) : STab.keys (σ ++ τ) = STab.keys σ ++ STab.keys τ := List.map_append

/-- A step that adds `new` to the table, where `parts` values and pointers are met. -/
structure Spent (H : Heap) (c L : Nat) (new : STab) (ads : List Nat) (parts e : Nat) : Prop where
  short : STab.Short L new
  sub : ∀ a ∈ STab.keys new, a ∈ ads
  nodup : (STab.keys new).Nodup
  costs : Costs c L (parts + partsSum H (STab.keys new)) e

theorem Spent.nil (H : Heap) (c L : Nat) (ads : List Nat) : Spent H c L [] ads 0 0 :=
  ⟨(fun _ h => nomatch h), (fun _ h => nomatch h), List.Pairwise.nil, Costs.zero c L⟩

/-- `serialize` succeeds and its work lies within the bounds. -/
def Spends (env : Env) (H : Heap) (c L : Nat) (v : Val) : Prop :=
  ∀ t segs σ, HasTy env H v t → finite v = true → segs.length + levels v ≤ L → STab.Short L σ → ∃ new j,
    ser env v t segs σ = .done (new ++ σ) (some j) ∧ (∀ a ∈ STab.keys new, a ∉ STab.keys σ) ∧
    Spent H c L new (addrs v) (partsOf v) (effort env c v t segs σ)

theorem Spent.seq {H : Heap} {c L : Nat} {σ n1 n2 : STab} {a1 a2 : List Nat} {p1 p2 e1 e2 : Nat} (h1 : Spent H c L n1 a1 p1 e1)
    (h2 : Spent H c L n2 a2 p2 e2) (hd1 : ∀ a ∈ STab.keys n1, a ∉ STab.keys σ) (hd2 : ∀ a ∈ STab.keys n2, a ∉ STab.keys (n1 ++ σ)) :
    Spent H c L (n2 ++ n1) (a1 ++ a2) (p1 + p2) (e1 + e2) ∧ ∀ a ∈ STab.keys (n2 ++ n1), a ∉ STab.keys σ := by
  have hk := keys_append n2 n1
  refine ⟨⟨Short_append h2.short h1.short, ?_, ?_, ?_⟩, ?_⟩
  · intro a ha
    rw [hk, List.mem_append] at ha
    rcases ha with h | h
    · exact List.mem_append_right _ (h2.sub a h)
    · exact List.mem_append_left _ (h1.sub a h)
  · rw [hk]
    refine List.nodup_append.2 ⟨h2.nodup, h1.nodup, ?_⟩
    rintro a ha b hb rfl
    exact hd2 a ha (by rw [keys_append]; exact List.mem_append_left _ hb)
  · rw [hk, partsSum_append]
    have := h1.costs.add h2.costs
    rwa [show p1 + p2 + (partsSum H (STab.keys n2) + partsSum H (STab.keys n1)) = p1 + partsSum H (STab.keys n1) + (p2 + partsSum H (STab.keys n2)) by omega]
  · intro a ha
    rw [hk, List.mem_append] at ha
    rcases ha with h | h
    · intro hm
      exact hd2 a h (by rw [keys_append]; exact List.mem_append_right _ hm)
    · exact hd1 a h

theorem Spent.wrap {H : Heap} {c L : Nat} {new : STab} {a1 a2 : List Nat} {p e : Nat} (h : Spent H c L new a1 p e) (hs : ∀ a ∈ a1, a ∈ a2) :
    Spent H c L new a2 (1 + p) (1 + e) :=
  ⟨h.short, fun a ha => hs a (h.sub a ha), h.nodup, by rw [Nat.add_assoc]; exact (Costs.one c L).add h.costs⟩

theorem spends_items (env : Env) (H : Heap) (c L : Nat) (vs : List Val) (hv : ∀ v ∈ vs, Spends env H c L v) :
    ∀ ts k segs σ, HasTys env H vs ts → finiteAll vs = true → segs.length + 1 + levelsAll vs ≤ L → STab.Short L σ → ∃ new js,
      serItems env vs ts k segs σ = .done (new ++ σ) (some js) ∧ (∀ a ∈ STab.keys new, a ∉ STab.keys σ) ∧
      Spent H c L new (addrsAll vs) (partsAll vs) (effortItems env c vs ts k segs σ) := by
  induction vs with
  | nil =>
    intro ts k segs σ ht _ _ _
    cases ts with
    | cons => simp [HasTys] at ht
    | nil => exact ⟨[], [], by simp [serItems], (fun _ h => nomatch h), by simpa [addrsAll, partsAll, effortItems] using Spent.nil H c L []⟩
  | cons v vs ih =>
    intro ts k segs σ ht hf hl hσ
    cases ts with
    | nil => simp [HasTys] at ht
    | cons t ts =>
      simp only [HasTys] at ht
      simp only [finiteAll, Bool.and_eq_true] at hf
      have hl1 : levels v ≤ levelsAll (v :: vs) := Nat.le_max_left _ _
      have hl2 : levelsAll vs ≤ levelsAll (v :: vs) := Nat.le_max_right _ _
      obtain ⟨n1, j, h1, d1, s1⟩ := hv v (by simp) t (.index k :: segs) σ ht.1 hf.1 (by simp only [List.length_cons]; omega) hσ
      obtain ⟨n2, js, h2, d2, s2⟩ := ih (fun w hw => hv w (by simp [hw])) ts (k + 1) segs (n1 ++ σ) ht.2 hf.2 (by omega) (Short_append s1.short hσ)
      obtain ⟨s3, d3⟩ := s1.seq s2 d1 d2
      refine ⟨n2 ++ n1, j :: js, ?_, d3, ?_⟩
      · simp only [serItems, h1, h2, SRes.map, Option.map_some, List.append_assoc]
      · rw [effortItems]
        simp only [h1]
        simpa only [addrsAll, partsAll] using s3

theorem spends_set (env : Env) (H : Heap) (c L : Nat) (t : Ty) (vs : List Val) (hv : ∀ v ∈ vs, Spends env H c L v) :
    ∀ segs σ, (∀ v ∈ vs, HasTy env H v t) → finiteAll vs = true → segs.length + levelsAll vs ≤ L → STab.Short L σ → ∃ new js,
      serSet env vs t segs σ = .done (new ++ σ) (some js) ∧ (∀ a ∈ STab.keys new, a ∉ STab.keys σ) ∧
      Spent H c L new (addrsAll vs) (partsAll vs) (effortSet env c vs t segs σ) := by
  induction vs with
  | nil => exact fun segs σ _ _ _ _ => ⟨[], [], by simp [serSet], (fun _ h => nomatch h), by simpa [addrsAll, partsAll, effortSet] using Spent.nil H c L []⟩
  | cons v vs ih =>
    intro segs σ ht hf hl hσ
    simp only [finiteAll, Bool.and_eq_true] at hf
    have hl1 : levels v ≤ levelsAll (v :: vs) := Nat.le_max_left _ _
    have hl2 : levelsAll vs ≤ levelsAll (v :: vs) := Nat.le_max_right _ _
    obtain ⟨n1, j, h1, d1, s1⟩ := hv v (by simp) t segs σ (ht v (by simp)) hf.1 (by omega) hσ
    obtain ⟨n2, js, h2, d2, s2⟩ := ih (fun w hw => hv w (by simp [hw])) segs (n1 ++ σ) (fun w hw => ht w (by simp [hw])) hf.2 (by omega) (Short_append s1.short hσ)
    obtain ⟨s3, d3⟩ := s1.seq s2 d1 d2
    refine ⟨n2 ++ n1, j :: js, ?_, d3, ?_⟩
    · simp only [serSet, h1, h2, SRes.map, Option.map_some, List.append_assoc]
    · rw [effortSet]
      simp only [h1]
      simpa only [addrsAll, partsAll] using s3

theorem spends_vals (env : Env) (H : Heap) (c L : Nat) (t : Ty) (kvs : List (Str × Val)) (hv : ∀ p ∈ kvs, Spends env H c L p.2) :
    ∀ segs σ, (∀ p ∈ kvs, HasTy env H p.2 t) → (∀ p ∈ kvs, finite p.2 = true) → (∀ p ∈ kvs, segs.length + 1 + levels p.2 ≤ L) → STab.Short L σ → ∃ new js,
      serEntries (kvs.map fun p => (p.1, ser env p.2 t)) segs σ = .done (new ++ σ) (some js) ∧ (∀ a ∈ STab.keys new, a ∉ STab.keys σ) ∧
      Spent H c L new (addrsVals kvs) (partsVals kvs) (effortEntries (kvs.map fun p => (p.1, effort env c p.2 t, ser env p.2 t)) segs σ) := by
  induction kvs with
  | nil => exact fun segs σ _ _ _ _ => ⟨[], [], by simp [serEntries], (fun _ h => nomatch h), by simpa [addrsVals, partsVals, effortEntries] using Spent.nil H c L []⟩
  | cons p kvs ih =>
    obtain ⟨key, v⟩ := p
    intro segs σ ht hf hl hσ
    obtain ⟨n1, j, h1, d1, s1⟩ := hv (key, v) (by simp) t (Seg.name key :: segs) σ (ht _ (by simp)) (hf _ (by simp))
      (by have := hl (key, v) (by simp); simp only [List.length_cons] at this ⊢; omega) hσ
    obtain ⟨n2, js, h2, d2, s2⟩ := ih (fun w hw => hv w (by simp [hw])) segs (n1 ++ σ) (fun w hw => ht w (by simp [hw])) (fun w hw => hf w (by simp [hw]))
      (fun w hw => hl w (by simp [hw])) (Short_append s1.short hσ)
    obtain ⟨s3, d3⟩ := s1.seq s2 d1 d2
    simp only at h1
    refine ⟨n2 ++ n1, (key, j) :: js, ?_, d3, ?_⟩
    · simp only [List.map_cons, serEntries, h1, h2, SRes.map, Option.map_some, List.append_assoc]
    · simp only [List.map_cons]
      rw [effortEntries]
      simp only [h1]
      simpa only [addrsVals, partsVals] using s3

theorem spends_members (env : Env) (H : Heap) (c L : Nat) (vs : List Val) (hv : ∀ w, sizeOf w < 1 + sizeOf vs → Spends env H c L w) :
    ∀ ms segs σ, MembersTy env H vs ms → finiteAll vs = true → segs.length + 1 + levelsAll vs ≤ L → STab.Short L σ → ∃ new js,
      serMembers env vs ms segs σ = .done (new ++ σ) (some js) ∧ (∀ a ∈ STab.keys new, a ∉ STab.keys σ) ∧
      Spent H c L new (addrsAll vs) (partsAll vs) (effortMembers env c vs ms segs σ) := by
  induction vs with
  | nil =>
    intro ms segs σ ht _ _ _
    cases ms with
    | cons => simp [MembersTy] at ht
    | nil => exact ⟨[], [], by simp [serMembers], (fun _ h => nomatch h), by simpa [addrsAll, partsAll, effortMembers] using Spent.nil H c L []⟩
  | cons v vs ih =>
    intro ms segs σ ht hf hl hσ
    have ih' := ih (fun w hw => hv w (by simp only [List.cons.sizeOf_spec]; omega))
    cases ms with
    | nil => simp [MembersTy] at ht
    | cons m ms =>
      rw [MembersTy_cons] at ht
      rw [serMembers_cons, effortMembers_cons]
      simp only [finiteAll, Bool.and_eq_true] at hf
      have hl1 : levels v ≤ levelsAll (v :: vs) := Nat.le_max_left _ _
      have hl2 : levelsAll vs ≤ levelsAll (v :: vs) := Nat.le_max_right _ _
      cases hk : fieldOf m.kind v with
      | bad => simp [hk] at ht
      | skip =>
        obtain ⟨-, rfl⟩ := fieldOf_skip hk
        obtain ⟨n, js, h1, d1, s1⟩ := ih' ms segs σ ht.2 hf.2 (by omega) hσ
        exact ⟨n, js, h1, d1, by simpa [addrsAll, addrs, partsAll, partsOf] using s1⟩
      | here w =>
        simp only [hk] at ht
        have hlv : levels w = levels v := by
          rcases fieldOf_here hk with ⟨-, rfl⟩ | ⟨-, rfl⟩ <;> rfl
        have hpv : partsOf w = partsOf v := by
          rcases fieldOf_here hk with ⟨-, rfl⟩ | ⟨-, rfl⟩ <;> rfl
        obtain ⟨n1, j, h1, d1, s1⟩ := hv w (by have := fieldOf_size hk; simp only [List.cons.sizeOf_spec]; omega) m.ty (Seg.name m.name :: segs) σ ht.1
          (by rw [← finite_field hk]; exact hf.1) (by simp only [List.length_cons]; omega) hσ
        obtain ⟨n2, js, h2, d2, s2⟩ := ih' ms segs (n1 ++ σ) ht.2 hf.2 (by omega) (Short_append s1.short hσ)
        obtain ⟨s3, d3⟩ := s1.seq s2 d1 d2
        refine ⟨n2 ++ n1, (m.name, j) :: js, ?_, d3, ?_⟩
        · simp only [h1, h2, SRes.map, Option.map_some, List.append_assoc]
        · simp only [h1]
          simpa only [addrsAll, partsAll, addrs_field hk, hpv] using s3

theorem spends (env : Env) (hfair : env.Fair) (H : Heap) (c L : Nat) : ∀ v, Spends env H c L v := by
  apply Val.strong
  intro v ih t segs σ ht hf hl hσ
  revert ht
  rw [HasTy.eq_def]
  split <;> intro ht
  · rename_i p k
    obtain ⟨j, hj⟩ := serPrim_ok env p k ht hf
    refine ⟨[], j, by simp [ser, hj], (fun _ h => nomatch h), ?_⟩
    simpa [effort, partsOf, addrs] using (Spent.nil H c L []).wrap (a2 := []) (fun _ h => h)
  · rename_i vs t
    obtain ⟨n, js, h1, d1, s1⟩ := spends_items env H c L vs (fun w hw => ih w (by have := mem_size hw; simp; omega)) _ 0 segs σ
      (HasTys_replicate _ _ _ _ ht) hf (by simp only [levels] at hl; omega) hσ
    exact ⟨n, .arr js, by simp only [ser]; exact map_some h1, d1, by rw [effort, partsOf]; exact s1.wrap fun _ h => h⟩
  · rename_i vs n t
    obtain ⟨rfl, ht⟩ := ht
    obtain ⟨n, js, h1, d1, s1⟩ := spends_items env H c L vs (fun w hw => ih w (by have := mem_size hw; simp; omega)) _ 0 segs σ
      (HasTys_replicate _ _ _ _ ht) hf (by simp only [levels] at hl; omega) hσ
    exact ⟨n, .arr js, by simp only [ser, if_true]; exact map_some h1, d1, by rw [effort, partsOf]; exact s1.wrap fun _ h => h⟩
  · rename_i vs ts
    obtain ⟨n, js, h1, d1, s1⟩ := spends_items env H c L vs (fun w hw => ih w (by have := mem_size hw; simp; omega)) _ 0 segs σ
      ht hf (by simp only [levels] at hl; omega) hσ
    exact ⟨n, .arr js, by simp only [ser]; exact map_some h1, d1, by rw [effort, partsOf]; exact s1.wrap fun _ h => h⟩
  · rename_i vs t
    obtain ⟨n, js, h1, d1, s1⟩ := spends_set env H c L t vs (fun w hw => ih w (by have := mem_size hw; simp; omega)) segs σ
      ((AllTy_iff _ _ _ _).1 ht.1) hf (by simp only [levels] at hl; omega) hσ
    exact ⟨n, .arr js, by simp only [ser]; exact map_some h1, d1, by rw [effort, partsOf]; exact s1.wrap fun _ h => h⟩
  · rename_i kvs o t
    have hp := iterate_perm env hfair o segs kvs ht.2.nodup
    have hk := (ValsTy_iff _ _ _ _).1 ht.1
    have hfin := (finiteVals_iff kvs).1 hf
    obtain ⟨n, js, h1, d1, s1⟩ := spends_vals env H c L t (iterate env o segs kvs)
      (fun w hw => ih w.2 (by have := mem_size_kv (hp.mem_iff.1 hw); simp; omega)) segs σ
      (fun w hw => hk w (hp.mem_iff.1 hw)) (fun w hw => hfin w (hp.mem_iff.1 hw))
      (fun w hw => by have := levelsVals_mem (hp.mem_iff.1 hw); simp only [levels] at hl; omega) hσ
    refine ⟨n, .obj js, ?_, d1, ?_⟩
    · simp only [ser, serVals_eq, iterate_map (g := fun p => ser env p.2 t)]
      exact map_some h1
    · rw [effort, partsOf, effortVals_eq, iterate_map (g := fun p => (effort env c p.2 t, ser env p.2 t)), ← partsVals_perm hp]
      refine s1.wrap fun a ha => ?_
      simp only [addrs, mem_addrsVals] at ha ⊢
      obtain ⟨p, h4, h5⟩ := ha
      exact ⟨p, hp.mem_iff.1 h4, h5⟩
  · rename_i kvs t
    have hk := (ValsTy_iff _ _ _ _).1 ht
    have hfin := (finiteVals_iff kvs).1 hf
    obtain ⟨n, js, h1, d1, s1⟩ := spends_vals env H c L t kvs (fun w hw => ih w.2 (by have := mem_size_kv hw; simp; omega)) segs σ hk hfin
      (fun w hw => by have := levelsVals_mem hw; simp only [levels] at hl; omega) hσ
    refine ⟨n, .obj js, ?_, d1, ?_⟩
    · simp only [ser, serVals_eq]
      exact map_some h1
    · rw [effort, partsOf, effortVals_eq]
      exact s1.wrap fun _ h => h
  · rename_i i w ts
    obtain ⟨t, hi, ht⟩ := ht
    obtain ⟨n, j, h1, d1, s1⟩ := ih w (by simp; omega) t segs σ ht hf (by simp only [levels] at hl; omega) hσ
    refine ⟨n, j, by simp only [ser, hi, h1], d1, ?_⟩
    rw [effort, partsOf]
    simp only [hi]
    exact s1.wrap fun _ h => h
  · rename_i vs k
    obtain ⟨n, js, h1, d1, s1⟩ := spends_members env H c L vs (fun w hw => ih w (by simp; omega)) _ segs σ ht hf (by simp only [levels] at hl; omega) hσ
    exact ⟨n, .obj js, by simp only [ser]; exact map_some h1, d1, by rw [effort, partsOf]; exact s1.wrap fun _ h => h⟩
  · rename_i w t
    obtain ⟨n, j, h1, d1, s1⟩ := ih w (by simp) t segs σ ht hf (by simp only [levels] at hl; omega) hσ
    exact ⟨n, j, by simp only [ser, h1], d1, by rw [effort, partsOf]; exact s1.wrap fun _ h => h⟩
  · rename_i a w t
    rw [ser, effort]
    cases hg : σ.get a with
    | some s =>
      have hm : (a, s) ∈ σ := by
        obtain ⟨l1, l2, rfl, -⟩ := List.lookup_eq_some_iff.1 hg
        simp
      refine ⟨[], _, rfl, (fun _ h => nomatch h), (fun _ h => nomatch h), (fun _ h => nomatch h), List.Pairwise.nil, ?_⟩
      exact Costs.path c L _ (Nat.mul_le_mul_left 2 (hσ _ hm))
    | none =>
      obtain ⟨n, j, h1, d1, s1⟩ := ih w (by simp; omega) t segs σ ht.2 hf (by simp only [levels] at hl; omega) hσ
      have hfresh : a ∉ addrs w := by
        intro hm
        obtain ⟨t', x, hx, hsz⟩ := addrs_size env H w t ht.2 a hm
        rw [ht.1] at hx
        cases hx
        omega
      have hn1 : a ∉ STab.keys n := fun hm => hfresh (s1.sub a hm)
      have hn2 : a ∉ STab.keys σ := by
        intro hm
        obtain ⟨⟨b, s⟩, hm', rfl⟩ := List.mem_map.1 hm
        have := List.lookup_eq_none_iff.1 hg _ hm'
        simp at this
      have hl' : (n ++ σ).lookup a = none := by
        rw [List.lookup_eq_none_iff]
        intro p hp
        simp only [bne_iff_ne, ne_eq]
        rintro rfl
        rcases List.mem_append.1 hp with h | h
        · exact hn1 (List.mem_map.2 ⟨p, h, rfl⟩)
        · exact hn2 (List.mem_map.2 ⟨p, h, rfl⟩)
      have hlen : segs.length ≤ L := by omega
      refine ⟨(a, segs) :: n, j, ?_, ?_, ?_, ?_, ?_, ?_⟩
      · simp [h1, STab.put, hl']
      · intro b hb
        rcases List.mem_cons.1 hb with rfl | hb
        · exact hn2
        · exact d1 b hb
      · intro p hp
        rcases List.mem_cons.1 hp with rfl | hp
        · exact hlen
        · exact s1.short p hp
      · intro b hb
        rw [addrs]
        rcases List.mem_cons.1 hb with rfl | hb
        · exact List.mem_cons_self
        · exact List.mem_cons_of_mem _ (s1.sub b hb)
      · exact List.nodup_cons.2 ⟨hn1, s1.nodup⟩
      · simp only [h1]
        have h2 : partsAt H a = partsOf w := by rw [partsAt, ht.1]
        have h3 : partsSum H (STab.keys ((a, segs) :: n)) = partsOf w + partsSum H (STab.keys n) := by
          rw [← h2]; rfl
        rw [h3, show partsOf (.sptr a w) = 1 from rfl]
        have := (Costs.path c L segs.length (by omega)).add s1.costs
        rwa [show 1 + (effort env c w t segs σ + c * segs.length) = 1 + c * segs.length + effort env c w t segs σ by omega]
  · exact ht.elim

/-! ## Values without shared objects -/

/-- The work for a value without shared objects, whether it can be written or not. -/
def Frugal (env : Env) (c : Nat) (v : Val) : Prop := ∀ t segs σ, HasTy env (fun _ => none) v t → effort env c v t segs σ ≤ partsOf v

theorem frugal_items (env : Env) (c : Nat) (vs : List Val) (hv : ∀ v ∈ vs, Frugal env c v) :
    ∀ ts k segs σ, HasTys env (fun _ => none) vs ts → effortItems env c vs ts k segs σ ≤ partsAll vs := by
  induction vs with
  | nil => intro ts k segs σ _; simp [effortItems]
  | cons v vs ih =>
    intro ts k segs σ ht
    cases ts with
    | nil => simp [effortItems]
    | cons t ts =>
      simp only [HasTys] at ht
      rw [effortItems, partsAll]
      refine Nat.add_le_add (hv v (by simp) t _ _ ht.1) ?_
      split
      · exact ih (fun w hw => hv w (by simp [hw])) ts _ _ _ ht.2
      · exact Nat.zero_le _

theorem frugal_set (env : Env) (c : Nat) (t : Ty) (vs : List Val) (hv : ∀ v ∈ vs, Frugal env c v) :
    ∀ segs σ, (∀ v ∈ vs, HasTy env (fun _ => none) v t) → effortSet env c vs t segs σ ≤ partsAll vs := by
  induction vs with
  | nil => intro segs σ _; simp [effortSet]
  | cons v vs ih =>
    intro segs σ ht
    rw [effortSet, partsAll]
    refine Nat.add_le_add (hv v (by simp) t _ _ (ht v (by simp))) ?_
    split
    · exact ih (fun w hw => hv w (by simp [hw])) _ _ fun w hw => ht w (by simp [hw])
    · exact Nat.zero_le _

theorem frugal_vals (env : Env) (c : Nat) (t : Ty) (kvs : List (Str × Val)) (hv : ∀ p ∈ kvs, Frugal env c p.2) :
    ∀ segs σ, (∀ p ∈ kvs, HasTy env (fun _ => none) p.2 t) →
      effortEntries (kvs.map fun p => (p.1, effort env c p.2 t, ser env p.2 t)) segs σ ≤ partsVals kvs := by
  induction kvs with
  | nil => intro segs σ _; simp [effortEntries]
  | cons p kvs ih =>
    obtain ⟨key, v⟩ := p
    intro segs σ ht
    simp only [List.map_cons]
    rw [effortEntries, partsVals]
    refine Nat.add_le_add (hv (key, v) (by simp) t _ _ (ht (key, v) (by simp))) ?_
    split
    · exact ih (fun w hw => hv w (by simp [hw])) _ _ fun w hw => ht w (by simp [hw])
    · exact Nat.zero_le _

theorem frugal_members (env : Env) (c : Nat) (vs : List Val) (hv : ∀ w, sizeOf w < 1 + sizeOf vs → Frugal env c w) :
    ∀ ms segs σ, MembersTy env (fun _ => none) vs ms → effortMembers env c vs ms segs σ ≤ partsAll vs := by
  induction vs with
  | nil => intro ms segs σ _; simp [effortMembers]
  | cons v vs ih =>
    intro ms segs σ ht
    have ih' := ih (fun w hw => hv w (by simp only [List.cons.sizeOf_spec]; omega))
    cases ms with
    | nil => simp [effortMembers]
    | cons m ms =>
      rw [MembersTy_cons] at ht
      rw [effortMembers_cons, partsAll]
      cases hk : fieldOf m.kind v with
      | bad => exact Nat.zero_le _
      | skip => exact Nat.le_trans (ih' ms segs σ ht.2) (Nat.le_add_left _ _)
      | here w =>
        simp only [hk] at ht
        have hpv : partsOf w = partsOf v := by
          rcases fieldOf_here hk with ⟨-, rfl⟩ | ⟨-, rfl⟩ <;> rfl
        rw [← hpv]
        refine Nat.add_le_add (hv w (by have := fieldOf_size hk; simp only [List.cons.sizeOf_spec]; omega) _ _ _ ht.1) ?_
        split
        · exact ih' ms segs _ ht.2
        · exact Nat.zero_le _

theorem frugal (env : Env) (hfair : env.Fair) (c : Nat) : ∀ v, Frugal env c v := by
  apply Val.strong
  intro v ih t segs σ ht
  revert ht
  rw [HasTy.eq_def]
  split <;> intro ht
  · simp [effort, partsOf]
  · rename_i vs t
    rw [effort, partsOf]
    exact Nat.add_le_add_left (frugal_items env c vs (fun w hw => ih w (by have := mem_size hw; simp; omega)) _ _ _ _ (HasTys_replicate _ _ _ _ ht)) 1
  · rename_i vs n t
    obtain ⟨rfl, ht⟩ := ht
    rw [effort, partsOf]
    exact Nat.add_le_add_left (frugal_items env c vs (fun w hw => ih w (by have := mem_size hw; simp; omega)) _ _ _ _ (HasTys_replicate _ _ _ _ ht)) 1
  · rename_i vs ts
    rw [effort, partsOf]
    exact Nat.add_le_add_left (frugal_items env c vs (fun w hw => ih w (by have := mem_size hw; simp; omega)) _ _ _ _ ht) 1
  · rename_i vs t
    rw [effort, partsOf]
    exact Nat.add_le_add_left (frugal_set env c t vs (fun w hw => ih w (by have := mem_size hw; simp; omega)) _ _ ((AllTy_iff _ _ _ _).1 ht.1)) 1
  · rename_i kvs o t
    have hp := iterate_perm env hfair o segs kvs ht.2.nodup
    have hk := (ValsTy_iff _ _ _ _).1 ht.1
    rw [effort, partsOf, effortVals_eq, iterate_map (g := fun p => (effort env c p.2 t, ser env p.2 t)), ← partsVals_perm hp]
    exact Nat.add_le_add_left (frugal_vals env c t _ (fun w hw => ih w.2 (by have := mem_size_kv (hp.mem_iff.1 hw); simp; omega)) _ _
      fun w hw => hk w (hp.mem_iff.1 hw)) 1
  · rename_i kvs t
    rw [effort, partsOf, effortVals_eq]
    exact Nat.add_le_add_left (frugal_vals env c t _ (fun w hw => ih w.2 (by have := mem_size_kv hw; simp; omega)) _ _ ((ValsTy_iff _ _ _ _).1 ht)) 1
  · rename_i i w ts
    obtain ⟨t, hi, ht⟩ := ht
    rw [effort, partsOf]
    simp only [hi]
    exact Nat.add_le_add_left (ih w (by simp; omega) t _ _ ht) 1
  · rename_i vs k
    rw [effort, partsOf]
    exact Nat.add_le_add_left (frugal_members env c vs (fun w hw => ih w (by simp; omega)) _ _ _ ht) 1
  · rename_i w t
    rw [effort, partsOf]
    exact Nat.add_le_add_left (ih w (by simp) t _ _ ht) 1
  · exact absurd ht.1 (by simp)
  · exact ht.elim

end Verif.Core
