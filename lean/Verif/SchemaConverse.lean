import Verif.SchemaAccepts

/-!
# Documents that conform to a type are valid against its schema

The converse of `valid_conforms`, for types with exact schemas (`Depictable`) and documents that have nothing but
what the type asks for (`Regular`).
-/

namespace Verif.Core
open Verif.Numeric Verif.EnumConv JsonSchema

mutual
/-- No enumerations; variants whose alternatives are read from different kinds of JSON values; classes of `G`. -/
def Depictable (G : Nat → Prop) : Ty → Prop
  | .prim (.enumInt _) => False
  | .prim (.enumStr _) => False
  | .prim _ => True
  | .vec t => Depictable G t
  | .arr _ t => Depictable G t
  | .set t => Depictable G t
  | .map _ t => Depictable G t
  | .dict t => Depictable G t
  | .tuple ts => DepictableAll G ts
  | .variant ts => DepictableAll G ts ∧ ts.Pairwise fun t t' => ∀ k ∈ t.kinds, k ∉ t'.kinds
  | .cls c => G c
  | .uptr t => Depictable G t
  | .sptr t => Depictable G t

/-- `Depictable` for lists. -/
def DepictableAll (G : Nat → Prop) : List Ty → Prop
  | [] => True
  | t :: ts => Depictable G t ∧ DepictableAll G ts
end

/-- Classes with depictable members, pairwise different member names, and no members with defaults (for which there is no
schema). -/
def DepictableClasses (env : Env) (G : Nat → Prop) : Prop :=
  ∀ c, G c → (∀ m ∈ env.members c, Depictable G m.ty ∧ m.kind ≠ .default) ∧ ((env.members c).map (·.name)).Nodup

theorem depictableAll_iff (G : Nat → Prop) (ts : List Ty) : DepictableAll G ts ↔ ∀ t ∈ ts, Depictable G t := by
  induction ts with
  | nil => simp [DepictableAll]
  | cons t ts ih => simp [DepictableAll, ih]

/-- Objects of classes have each key once and only keys that are names of members; sets have no element twice (two JSON
values are the same if JSON schema says so). -/
structure Regular (env : Env) (t : Ty) (j : Json) : Prop where
  objects : ∀ c fields, Part env t j (.cls c) (.obj fields) → (fields.map (·.1)).Nodup ∧ ∀ k ∈ fields.map (·.1), k ∈ (env.members c).map (·.name)
  sets : ∀ t' js, Part env t j (.set t') (.arr js) → js.Pairwise fun a b => same a b = false

theorem Regular.child {env : Env} {t t' : Ty} {j j' : Json} (h : Regular env t j) (hc : Child env t j t' j') : Regular env t' j' :=
  ⟨fun c fields hp => h.objects c fields (Part.of_child hc hp), fun u js hp => h.sets u js (Part.of_child hc hp)⟩

/-- A leaf that is read is accepted. -/
theorem leaf_taken (env : Env) (root : Json) (p : Prim) (j : Json) (pv : PVal) (h : LeafReads env p j pv) (h1 : ∀ t, p ≠ .enumInt t)
    (h2 : ∀ t, p ≠ .enumStr t) : JsonSchema.Verdict root (primSchema p).json j true := by
  cases h with
  | null | bool | flt | str | bytes | time | date => exact fundamental_accepts _ _ _ _ _ rfl
  | int t v hr =>
    rw [primSchema]
    split
    · exact integer_accepts root t.min t.max v hr _ rfl
    · rename_i hs
      refine integer_accepts root 0 t.max v ⟨?_, hr.2⟩ _ rfl
      have := hr.1
      simpa [IntTy.min, hs] using this
  | enumInt t => exact absurd rfl (h1 t)
  | enumStr t => exact absurd rfl (h2 t)

theorem verdict_one {root schema doc : Json} (h : JsonSchema.Verdict root schema doc true) (h' : JsonSchema.Verdict root schema doc false) : False := by
  obtain ⟨n, hn⟩ := h
  obtain ⟨m, hm⟩ := h'
  have := (hn (max n m) (by omega)).symm.trans (hm (max n m) (by omega))
  cases this

/-- A regular document that conforms to the type is valid. -/
theorem conforms_valid {env : Env} {D : Defs} (G : Nat → Prop) (hG : DepictableClasses env G) (hp : ∀ c, PlainName (className env c)) (version : Option Str) (s0 : Schema)
    {t : Ty} {s : Schema} (hd : Desc env D t s) : ∀ doc : Json, Depictable G t → ¬ Fails env.lower t.lower doc → Regular env.lower t.lower doc →
      JsonSchema.Verdict (schemaDoc version D s0) s.json doc true := by
  induction hd with
  | prim p =>
    intro doc hk hf _
    have : ∃ pv, LeafReads env.lower p doc pv := Classical.byContradiction fun hn => hf (.prim p doc fun pv h => hn ⟨pv, h⟩)
    obtain ⟨pv, h⟩ := this
    refine leaf_taken env.lower _ p doc pv h ?_ ?_
    · rintro t rfl; simp only [Depictable] at hk
    · rintro t rfl; simp only [Depictable] at hk
  | vec t s _ ih =>
    intro doc hk hf ho
    rw [Depictable] at hk
    cases doc with
    | arr js =>
      exact items_accepts _ _ _ _ _ (fun j hj => ih j hk (fun h => hf (.vec _ _ j hj h)) (ho.child (.vec _ _ j hj))) (fun h => by cases h) (fun n h => by cases h)
    | _ => exact absurd (.array _ _ rfl (by simp)) hf
  | arr n t s _ ih =>
    intro doc hk hf ho
    rw [Depictable] at hk
    cases doc with
    | arr js =>
      refine items_accepts _ _ _ _ _ (fun j hj => ih j hk (fun h => hf (.arr _ _ _ j hj h)) (ho.child (.arr _ _ _ j hj))) (fun h => by cases h) (fun m h => ?_)
      cases h
      exact Classical.byContradiction fun hn => hf (.arrLength _ _ _ hn)
    | _ => exact absurd (.array _ _ rfl (by simp)) hf
  | set t s _ ih =>
    intro doc hk hf ho
    rw [Depictable] at hk
    cases doc with
    | arr js =>
      exact items_accepts _ _ _ _ _ (fun j hj => ih j hk (fun h => hf (.set _ _ j hj h)) (ho.child (.set _ _ j hj)))
        (fun _ => distinct_of_pairwise js (ho.sets _ js .self)) (fun n h => by cases h)
    | _ => exact absurd (.array _ _ rfl (by simp)) hf
  | map o t s _ ih =>
    intro doc hk hf ho
    rw [Depictable] at hk
    cases doc with
    | obj ms => exact mapping_accepts _ _ _ fun q hq => ih q.2 hk (fun h => hf (.map _ _ _ q hq h)) (ho.child (.map _ _ _ q hq))
    | _ => exact absurd (.object _ _ rfl (by simp)) hf
  | dict t s _ ih =>
    intro doc hk hf ho
    rw [Depictable] at hk
    cases doc with
    | arr js =>
      refine items_accepts _ _ _ _ _ (fun j hj => ih j ?_ (fun h => hf (.dict _ _ j hj h)) (ho.child (.dict _ _ j hj))) (fun h => by cases h) (fun n h => by cases h)
      rw [Depictable, DepictableAll, DepictableAll, DepictableAll]
      exact ⟨by simp only [Depictable], hk, trivial⟩
    | _ => exact absurd (.array _ _ rfl (by simp)) hf
  | tuple ts ss hl _ ih =>
    intro doc hk hf ho
    rw [Depictable, depictableAll_iff] at hk
    cases doc with
    | arr js =>
      have hlen : js.length = ts.length := Classical.byContradiction fun hn => hf (.tupleLength _ _ (by rw [lowers_map, List.length_map]; exact hn))
      refine tuple_accepts _ _ _ (by omega) fun i s j hs hj => ?_
      have hi : i < ts.length := by
        have := (List.getElem?_eq_some_iff.1 hs).1
        omega
      have ht : ts[i]? = some ts[i] := List.getElem?_eq_getElem hi
      have htl : (Ty.lowers ts)[i]? = some (ts[i]).lower := by rw [lowers_getElem?, ht]; rfl
      exact ih i ts[i] s ht hs j (hk _ (List.getElem_mem hi)) (fun h => hf (.tuple _ _ i _ j htl hj h)) (ho.child (.tuple _ _ i _ j htl hj))
    | _ => exact absurd (.array _ _ rfl (by simp)) hf
  | variant ts ss hl hds ih =>
    intro doc hk hf ho
    rw [Depictable, depictableAll_iff] at hk
    have : ∃ t ∈ ts, ¬ Fails env.lower t.lower doc := Classical.byContradiction fun hn => hf (.variant _ _ fun t' ht' => by
      rw [lowers_map] at ht'
      obtain ⟨t, ht, rfl⟩ := List.mem_map.1 ht'
      exact Classical.byContradiction fun h => hn ⟨t, ht, h⟩)
    obtain ⟨t, ht, hft⟩ := this
    obtain ⟨i, hi, rfl⟩ := List.getElem_of_mem ht
    have hi' : i < ss.length := by omega
    have hti : ts[i]? = some ts[i] := List.getElem?_eq_getElem hi
    have hsi : ss[i]? = some ss[i] := List.getElem?_eq_getElem hi'
    have hv := ih i ts[i] ss[i] hti hsi doc (hk.1 _ ht) hft (ho.child (.variant _ _ _ (by rw [lowers_map]; exact List.mem_map.2 ⟨_, ht, rfl⟩)))
    have hkind : doc.kind ∈ (ts[i]).kinds := Classical.byContradiction fun hn => verdict_one hv (rejects hp version s0 (hds i _ _ hti hsi) doc hn)
    refine oneOf_accepts _ _ _ i _ hsi hv fun k s' hks hne => ?_
    have hkl : k < ts.length := by
      have := (List.getElem?_eq_some_iff.1 hks).1
      omega
    refine rejects hp version s0 (hds k ts[k] s' (List.getElem?_eq_getElem hkl) hks) doc fun hmem => ?_
    have hpw := List.pairwise_iff_getElem.1 hk.2
    rcases Nat.lt_or_gt_of_ne hne with hlt' | hlt'
    · exact hpw k i hkl hi hlt' _ hmem hkind
    · exact hpw i k hi hkl hlt' _ hkind hmem
  | cls c ps hn hms ih =>
    intro doc hk hf ho
    rw [Depictable] at hk
    obtain ⟨hm, hnd⟩ := hG c hk
    have hmem : env.lower.members c = (env.members c).map Member.lower := rfl
    cases doc with
    | obj ms =>
      obtain ⟨ho1, ho2⟩ := ho.objects c ms .self
      refine object_accepts _ _ _ _ (fun q hq => ?_) (fun k hk' => ?_)
      · have := ho2 q.1 (List.mem_map.2 ⟨q, hq, rfl⟩)
        rw [hmem, List.map_map] at this
        obtain ⟨m, hmm, hname⟩ := List.mem_map.1 this
        replace hname : m.name = q.1 := hname
        obtain ⟨i, hi, rfl⟩ := List.getElem_of_mem hmm
        obtain ⟨x, hx⟩ := findMember_unique ho1 hq
        have hlen : ps.length = (env.members c).length := by simpa using congrArg List.length hn
        have hpi : (ps[i]'(by omega)).1 = q.1 := by
          have := congrArg (fun l => l[i]?) hn
          simp only [List.getElem?_map, List.getElem?_eq_getElem hi, List.getElem?_eq_getElem (show i < ps.length by omega), Option.map_some, Option.some.injEq] at this
          rw [this, hname]
        have hml : (env.members c)[i].lower ∈ env.lower.members c := by rw [hmem]; exact List.mem_map.2 ⟨_, hmm, rfl⟩
        have hfm : findMember (env.members c)[i].lower.name ms = some (x, q.2) := by
          rw [show (env.members c)[i].lower.name = q.1 from hname]; exact hx
        refine ⟨(ps[i]'(by omega)).2, ?_, ih i _ _ (List.getElem?_eq_getElem hi) (List.getElem?_eq_getElem (by omega)) q.2 (hm _ hmm).1
          (fun h => hf (.member _ _ _ x q.2 hml hfm h)) (ho.child (.cls _ _ _ x q.2 hml hfm))⟩
        rw [← hpi]
        exact lookup_of_mem (by rw [hn]; exact hnd) (List.getElem_mem _)
      · obtain ⟨m, h3, rfl⟩ := List.mem_map.1 hk'
        rw [List.mem_filter] at h3
        have hreq : m.kind = .required := by
          have h4 := (hm m h3.1).2
          have h5 : m.kind ≠ .optional := by simpa using h3.2
          cases hkd : m.kind with
          | required => rfl
          | optional => exact absurd hkd h5
          | default => exact absurd hkd h4
        refine Classical.byContradiction fun hno => hf (.missing _ _ m.lower (by rw [hmem]; exact List.mem_map.2 ⟨m, h3.1, rfl⟩) ?_ hreq)
        exact findMember_none _ _ hno
    | _ => exact absurd (.object _ _ rfl (by simp)) hf
  | ref c s hl _ ih =>
    intro doc hk hf ho
    exact ref_accepts hp version s0 c s doc hl (ih doc hk hf ho)
  | uptr t s _ ih | sptr t s _ ih =>
    intro doc hk hf ho
    rw [Depictable] at hk
    exact ih doc hk (fun h => hf (.uptr _ _ h)) (ho.child (.uptr _ _))

end Verif.Core
