import Verif.RenderLemmas
import Verif.Deserialize
import Verif.Props.Base64
import Verif.Props.DateTime
import Verif.Props.EnumConv
import Verif.Props.Numeric

/-!
# Reading back what was written

`readBack`: deserializing a serialized value gives the value with new addresses for the shared objects.
-/

namespace Verif.Core
open Verif.Numeric Verif.EnumConv

/-! ## New addresses -/

mutual
/-- The value with other addresses. -/
def rename (ρ : Nat → Nat) : Val → Val
  | .prim p => .prim p
  | .seq vs => .seq (renameAll ρ vs)
  | .tup vs => .tup (renameAll ρ vs)
  | .set vs => .set (renameAll ρ vs)
  | .map kvs => .map (renameVals ρ kvs)
  | .dict kvs => .dict (renameVals ρ kvs)
  | .alt i v => .alt i (rename ρ v)
  | .obj vs => .obj (renameAll ρ vs)
  | .absent => .absent
  | .present v => .present (rename ρ v)
  | .nullptr => .nullptr
  | .uptr v => .uptr (rename ρ v)
  | .sptr a v => .sptr (ρ a) (rename ρ v)

/-- `rename` for lists. -/
def renameAll (ρ : Nat → Nat) : List Val → List Val
  | [] => []
  | v :: vs => rename ρ v :: renameAll ρ vs

/-- `rename` for the values of a map. -/
def renameVals (ρ : Nat → Nat) : List (Str × Val) → List (Str × Val)
  | [] => []
  | (k, v) :: kvs => (k, rename ρ v) :: renameVals ρ kvs
end

mutual
theorem rename_congr (ρ ρ' : Nat → Nat) : ∀ v : Val, (∀ a ∈ addrs v, ρ a = ρ' a) → rename ρ v = rename ρ' v
  | .prim _, _ => rfl
  | .seq vs, h => by simp only [rename, renameAll_congr ρ ρ' vs h]
  | .tup vs, h => by simp only [rename, renameAll_congr ρ ρ' vs h]
  | .set vs, h => by simp only [rename, renameAll_congr ρ ρ' vs h]
  | .map kvs, h => by simp only [rename, renameVals_congr ρ ρ' kvs h]
  | .dict kvs, h => by simp only [rename, renameVals_congr ρ ρ' kvs h]
  | .alt i v, h => by simp only [rename, rename_congr ρ ρ' v h]
  | .obj vs, h => by simp only [rename, renameAll_congr ρ ρ' vs h]
  | .absent, _ => rfl
  | .present v, h => by simp only [rename, rename_congr ρ ρ' v h]
  | .nullptr, _ => rfl
  | .uptr v, h => by simp only [rename, rename_congr ρ ρ' v h]
  | .sptr a v, h => by
      simp only [addrs, List.mem_cons] at h
      simp only [rename, rename_congr ρ ρ' v (fun b hb => h b (.inr hb)), h a (.inl rfl)]

theorem renameAll_congr (ρ ρ' : Nat → Nat) : ∀ vs : List Val, (∀ a ∈ addrsAll vs, ρ a = ρ' a) → renameAll ρ vs = renameAll ρ' vs
  | [], _ => rfl
  | v :: vs, h => by
      simp only [addrsAll, List.mem_append] at h
      simp only [renameAll, rename_congr ρ ρ' v (fun b hb => h b (.inl hb)), renameAll_congr ρ ρ' vs (fun b hb => h b (.inr hb))]

theorem renameVals_congr (ρ ρ' : Nat → Nat) : ∀ kvs : List (Str × Val), (∀ a ∈ addrsVals kvs, ρ a = ρ' a) → renameVals ρ kvs = renameVals ρ' kvs
  | [], _ => rfl
  | (k, v) :: kvs, h => by
      simp only [addrsVals, List.mem_append] at h
      simp only [renameVals, rename_congr ρ ρ' v (fun b hb => h b (.inl hb)), renameVals_congr ρ ρ' kvs (fun b hb => h b (.inr hb))]
end

mutual
theorem rename_id : ∀ v : Val, rename id v = v
  | .prim _ => rfl
  | .seq vs => by simp only [rename, renameAll_id vs]
  | .tup vs => by simp only [rename, renameAll_id vs]
  | .set vs => by simp only [rename, renameAll_id vs]
  | .map kvs => by simp only [rename, renameVals_id kvs]
  | .dict kvs => by simp only [rename, renameVals_id kvs]
  | .alt i v => by simp only [rename, rename_id v]
  | .obj vs => by simp only [rename, renameAll_id vs]
  | .absent => rfl
  | .present v => by simp only [rename, rename_id v]
  | .nullptr => rfl
  | .uptr v => by simp only [rename, rename_id v]
  | .sptr a v => by simp only [rename, rename_id v, id]

theorem renameAll_id : ∀ vs : List Val, renameAll id vs = vs
  | [] => rfl
  | v :: vs => by simp only [renameAll, rename_id v, renameAll_id vs]

theorem renameVals_id : ∀ kvs : List (Str × Val), renameVals id kvs = kvs
  | [] => rfl
  | (k, v) :: kvs => by simp only [renameVals, rename_id v, renameVals_id kvs]
end

mutual
theorem addrs_rename (ρ : Nat → Nat) : ∀ v : Val, addrs (rename ρ v) = (addrs v).map ρ
  | .prim _ => rfl
  | .seq vs => by simp only [rename, addrs, addrsAll_rename ρ vs]
  | .tup vs => by simp only [rename, addrs, addrsAll_rename ρ vs]
  | .set vs => by simp only [rename, addrs, addrsAll_rename ρ vs]
  | .map kvs => by simp only [rename, addrs, addrsVals_rename ρ kvs]
  | .dict kvs => by simp only [rename, addrs, addrsVals_rename ρ kvs]
  | .alt i v => by simp only [rename, addrs, addrs_rename ρ v]
  | .obj vs => by simp only [rename, addrs, addrsAll_rename ρ vs]
  | .absent => rfl
  | .present v => by simp only [rename, addrs, addrs_rename ρ v]
  | .nullptr => rfl
  | .uptr v => by simp only [rename, addrs, addrs_rename ρ v]
  | .sptr a v => by simp only [rename, addrs, addrs_rename ρ v, List.map_cons]

theorem addrsAll_rename (ρ : Nat → Nat) : ∀ vs : List Val, addrsAll (renameAll ρ vs) = (addrsAll vs).map ρ
  | [] => rfl
  | v :: vs => by simp only [renameAll, addrsAll, addrs_rename ρ v, addrsAll_rename ρ vs, List.map_append]

theorem addrsVals_rename (ρ : Nat → Nat) : ∀ kvs : List (Str × Val), addrsVals (renameVals ρ kvs) = (addrsVals kvs).map ρ
  | [] => rfl
  | (k, v) :: kvs => by simp only [renameVals, addrsVals, addrs_rename ρ v, addrsVals_rename ρ kvs, List.map_append]
end

mutual
theorem rename_rename (f g : Nat → Nat) : ∀ v : Val, rename f (rename g v) = rename (f ∘ g) v
  | .prim _ => rfl
  | .seq vs => by simp only [rename, renameAll_rename f g vs]
  | .tup vs => by simp only [rename, renameAll_rename f g vs]
  | .set vs => by simp only [rename, renameAll_rename f g vs]
  | .map kvs => by simp only [rename, renameVals_rename f g kvs]
  | .dict kvs => by simp only [rename, renameVals_rename f g kvs]
  | .alt i v => by simp only [rename, rename_rename f g v]
  | .obj vs => by simp only [rename, renameAll_rename f g vs]
  | .absent => rfl
  | .present v => by simp only [rename, rename_rename f g v]
  | .nullptr => rfl
  | .uptr v => by simp only [rename, rename_rename f g v]
  | .sptr a v => by simp only [rename, rename_rename f g v, Function.comp]

theorem renameAll_rename (f g : Nat → Nat) : ∀ vs : List Val, renameAll f (renameAll g vs) = renameAll (f ∘ g) vs
  | [] => rfl
  | v :: vs => by simp only [renameAll, rename_rename f g v, renameAll_rename f g vs]

theorem renameVals_rename (f g : Nat → Nat) : ∀ kvs : List (Str × Val), renameVals f (renameVals g kvs) = renameVals (f ∘ g) kvs
  | [] => rfl
  | (k, v) :: kvs => by simp only [renameVals, rename_rename f g v, renameVals_rename f g kvs]
end

/-- Without shared objects nothing is renamed. -/
theorem rename_noaddr (ρ : Nat → Nat) (v : Val) (h : addrs v = []) : rename ρ v = v := by
  rw [rename_congr ρ id v (by simp [h]), rename_id]

theorem renameVals_eq (ρ : Nat → Nat) (kvs : List (Str × Val)) : renameVals ρ kvs = kvs.map fun p => (p.1, rename ρ p.2) := by
  induction kvs with
  | nil => rfl
  | cons p kvs ih => cases p; simp [renameVals, ih]

theorem renameAll_noaddr (ρ : Nat → Nat) (vs : List Val) (h : addrsAll vs = []) : renameAll ρ vs = vs := by
  rw [renameAll_congr ρ id vs (by simp [h]), renameAll_id]

/-! ## Leaves -/

/-- The leaf is represented exactly in a document: timestamps are whole seconds of the years 0 to 9999,
dates lie in these years, enumerators have a name of their own. (Numbers, strings and bytes always are.) -/
def LeafGood (env : Env) : PVal → Prim → Prop
  | .time t, .time => ∃ s, t = s * env.clk ∧ Props.minSecond ≤ s ∧ s < Props.endSecond
  | .date y _ _, .date => 0 ≤ y ∧ y < 10000
  | .int v, .enumStr table => v ∈ table.map (·.1) ∧ (table.map (·.2)).Nodup
  | _, _ => True

theorem desInt_ok (t : IntTy) (v : Int) (h : t.InRange v) : desInt t (.num (.int v)) = .ok (.int v) := by
  have := (Props.C15_deserialize_int_exact t (.int v) v).2 ⟨rfl, h⟩
  simp only [desInt, this]

/-- A leaf is read back exactly. -/
theorem leaf_back (env : Env) (hclk : 0 < env.clk) (k : Prim) (p : PVal) (j : Json) (ht : PrimTy env p k) (hg : LeafGood env p k)
    (h : serPrim env k p = .ok j) : desPrim env k j = .ok p := by
  cases k with
  | null => cases p <;> first | exact ht.elim | (cases h; rfl)
  | bool => cases p <;> first | exact ht.elim | (cases h; rfl)
  | int t => cases p <;> first | exact ht.elim | (cases h; exact desInt_ok t _ ht)
  | flt t =>
    cases p with
    | flt f =>
      rw [serPrim_flt] at h
      split at h
      · simp only [LeafSer.ok.injEq] at h
        rw [← h, desPrim_flt]
        simp only [deserializeFlt, JsonNum.getDouble, round_fits t f ht]
      · cases h
    | _ => exact ht.elim
  | str => cases p <;> first | exact ht.elim | (cases h; rfl)
  | bytes =>
    cases p with
    | bytes s =>
      rw [serPrim_bytes] at h
      simp only [LeafSer.ok.injEq] at h
      rw [← h, desPrim_bytes, Props.C01_base64_roundtrip]
    | _ => exact ht.elim
  | time =>
    cases p with
    | time t =>
      rw [serPrim_time] at h
      simp only [LeafSer.ok.injEq] at h
      obtain ⟨s, rfl, h1, h2⟩ := hg
      rw [← h, desPrim_time, Props.C06_timestamp_roundtrip env.junk env.clk hclk s ⟨h1, h2⟩ ht]
    | _ => exact ht.elim
  | date =>
    cases p with
    | date y m d =>
      rw [serPrim_date] at h
      obtain ⟨h1, h2⟩ := hg
      obtain ⟨n, rfl⟩ := Int.eq_ofNat_of_zero_le h1
      obtain ⟨text, h3, h4⟩ := Props.C11_date_roundtrip env.junk env.clk hclk n m d (by omega) ht.1 ht.2
      rw [h3] at h
      simp only [LeafSer.ok.injEq] at h
      rw [← h, desPrim_date, h4]
    | _ => exact ht.elim
  | enumInt t => cases p <;> first | exact ht.elim | (cases h; exact desInt_ok t _ ht)
  | enumStr table =>
    cases p with
    | int v =>
      rw [serPrim_enumStr] at h
      simp only [LeafSer.ok.injEq] at h
      rw [← h, desPrim_enumStr, Props.C18_enum_roundtrip table hg.2 v hg.1]
    | _ => exact ht.elim

/-! ## Values that can be read back -/

/-- A node is read into this type as a shared object, possibly behind unique pointers or as an alternative. -/
def Ty.topShared : Ty → Bool
  | .sptr _ => true
  | .uptr t => t.topShared
  | .variant ts => topSharedAny ts
  | _ => false
where
  /-- One of the types is `topShared`. -/
  topSharedAny : List Ty → Bool
    | [] => false
    | t :: ts => t.topShared || topSharedAny ts

/-- The names of the members of the object that the value is written as. -/
def topKeys (env : Env) : Val → Ty → List Str
  | .obj _, .cls c => (env.members c).map (·.name)
  | .map kvs, .map _ _ => kvs.map (·.1)
  | .dict kvs, .dict _ => kvs.map (·.1)
  | .uptr v, .uptr t => topKeys env v t
  | .alt i v, .variant ts => match ts[i]? with | some t => topKeys env v t | none => []
  | _, _ => []

/-- Reading the node as the type fails, without a trace in the table of references. -/
def Rejects (env : Env) (t : Ty) (j : Json) : Prop :=
  ∀ root loc segs st, ∃ w, deser env root j false t (env.fresh t) loc segs st = .done false w st

mutual
/-- The value can be read back: leaves are represented exactly, keys have no NUL characters, sets have no
shared objects, earlier alternatives of variants reject what is written for a later one, a shared pointer
does not point to a shared pointer or to an object with a member `"$ref"`; there are no dictionaries. -/
def Readable (env : Env) : Val → Ty → Prop
  | .prim p, .prim k => LeafGood env p k
  | .seq vs, .vec t => ReadableAll env vs t
  | .tup vs, .arr _ t => ReadableAll env vs t
  | .tup vs, .tuple ts => Readables env vs ts
  | .set vs, .set t => addrsAll vs = [] ∧ ReadableAll env vs t
  | .map kvs, .map _ t => ReadableVals env kvs t
  | .alt i v, .variant ts => ∃ t, ts[i]? = some t ∧ Readable env v t ∧
      ∀ k t', k < i → ts[k]? = some t' → ∀ pos j tr, Shows env v t pos j tr → Rejects env t' j
  | .obj vs, .cls c => ReadableMembers env vs (env.members c)
  | .uptr v, .uptr t => Readable env v t
  | .sptr _ v, .sptr t => t.topShared = false ∧ lit "$ref" ∉ topKeys env v t ∧ Readable env v t
  | _, _ => False

/-- All elements can be read back. -/
def ReadableAll (env : Env) : List Val → Ty → Prop
  | [], _ => True
  | v :: vs, t => Readable env v t ∧ ReadableAll env vs t

/-- Elements with types from a list. -/
def Readables (env : Env) : List Val → List Ty → Prop
  | v :: vs, t :: ts => Readable env v t ∧ Readables env vs ts
  | _, _ => True

/-- Entries of a map. -/
def ReadableVals (env : Env) : List (Str × Val) → Ty → Prop
  | [], _ => True
  | (k, v) :: kvs, t => (0 ∉ k ∧ Readable env v t) ∧ ReadableVals env kvs t

/-- Members of a class. -/
def ReadableMembers (env : Env) : List Val → List Member → Prop
  | v :: vs, m :: ms =>
      (match v with
      | .absent => True
      | .present w => Readable env w m.ty
      | v => Readable env v m.ty) ∧ ReadableMembers env vs ms
  | _, _ => True
end

theorem ReadableAll_iff (env : Env) (vs : List Val) (t : Ty) : ReadableAll env vs t ↔ ∀ v ∈ vs, Readable env v t := by
  induction vs with
  | nil => simp [ReadableAll]
  | cons v vs ih => simp [ReadableAll, ih]

theorem ReadableVals_iff (env : Env) (kvs : List (Str × Val)) (t : Ty) :
    ReadableVals env kvs t ↔ ∀ p ∈ kvs, 0 ∉ p.1 ∧ Readable env p.2 t := by
  induction kvs with
  | nil => simp [ReadableVals]
  | cons p kvs ih => cases p; simp [ReadableVals, ih]

theorem Readables_replicate (env : Env) (vs : List Val) (t : Ty) (h : ReadableAll env vs t) :
    Readables env vs (List.replicate vs.length t) := by
  induction vs with
  | nil => simp [Readables]
  | cons v vs ih => simp only [ReadableAll] at h; simp [Readables, List.replicate_succ, h.1, ih h.2]

/-- The member names of each class are pairwise distinct. -/
def Env.DistinctNames (env : Env) : Prop := ∀ c, ((env.members c).map (·.name)).Nodup

/-! ## Containers -/

theorem setInsert_last (less : Val → Val → Bool) (x : Val) (l : List Val) (h : ∀ y ∈ l, less y x = true) :
    setInsert less x l = l ++ [x] := by
  induction l with
  | nil => rfl
  | cons y l ih =>
    simp only [setInsert, h y (by simp), if_true, List.cons_append]
    rw [ih (fun z hz => h z (by simp [hz]))]

/-- Inserting in ascending order. -/
theorem insertAll (less : Val → Val → Bool) (l s : List Val) (hl : l.Pairwise fun x y => less x y = true)
    (h : ∀ x ∈ s, ∀ y ∈ l, less x y = true) : l.foldl (fun s v => setInsert less v s) s = s ++ l := by
  induction l generalizing s with
  | nil => simp
  | cons x l ih =>
    rw [List.pairwise_cons] at hl
    simp only [List.foldl_cons]
    rw [setInsert_last less x s (fun y hy => h y hy x (by simp)), ih _ hl.2]
    · simp
    · intro y hy z hz
      rcases List.mem_append.1 hy with hy | hy
      · exact h y hy z (by simp [hz])
      · simp only [List.mem_singleton] at hy
        exact hy ▸ hl.1 z hz

theorem strLess_trichotomy (a b : Str) : strLess a b = true ∨ a = b ∨ strLess b a = true := by
  induction a generalizing b with
  | nil => cases b <;> simp [strLess]
  | cons x a ih =>
    cases b with
    | nil => simp [strLess]
    | cons y b =>
      simp only [strLess]
      by_cases h1 : x.toNat < y.toNat
      · simp [h1]
      · by_cases h2 : y.toNat < x.toNat
        · simp [h1, h2]
        · have : x = y := UInt8.toNat_inj.1 (by omega)
          subst this
          simp only [Nat.lt_irrefl, if_false, List.cons.injEq, true_and]
          exact ih b

theorem strLess_asymm (a b : Str) (h : strLess a b = true) : strLess b a = false := by
  cases hb : strLess b a with
  | false => rfl
  | true =>
    have := strLess_trans a b a h hb
    rw [strLess_irrefl] at this
    exact this.symm

/-- Keys in strictly ascending order, for entries of any kind. -/
def KeysAsc {α : Type} (l : List (Str × α)) : Prop := l.Pairwise fun p q => strLess p.1 q.1 = true

theorem keysAsc_iff (kvs : List (Str × Val)) : Ascending kvs ↔ KeysAsc kvs := by
  simp [Ascending, KeysAsc, List.pairwise_map]

/-- A new key is added at its place. -/
theorem mapAssign_new {α : Type} (k : Str) (a : α) (l : List (Str × α)) (hl : KeysAsc l) (hk : k ∉ l.map (·.1)) :
    KeysAsc (mapAssign k a l) ∧ (mapAssign k a l).Perm ((k, a) :: l) := by
  induction l with
  | nil => simp [mapAssign, KeysAsc]
  | cons p l ih =>
    obtain ⟨k', a'⟩ := p
    simp only [KeysAsc, List.pairwise_cons, List.map_cons, List.mem_cons, not_or] at hl hk ih ⊢
    simp only [mapAssign, if_neg (Ne.symm hk.1)]
    obtain ⟨h1, h2⟩ := ih hl.2 hk.2
    by_cases hlt : strLess k' k = true
    · simp only [hlt, if_true, List.pairwise_cons]
      refine ⟨⟨?_, h1⟩, (h2.cons _).trans (List.Perm.swap _ _ _)⟩
      intro q hq
      rcases List.mem_cons.1 (h2.mem_iff.1 hq) with rfl | hq
      · exact hlt
      · exact hl.1 q hq
    · simp only [if_neg hlt, List.pairwise_cons]
      refine ⟨⟨?_, hl⟩, List.Perm.refl _⟩
      have hkk : strLess k k' = true := by
        rcases strLess_trichotomy k k' with h | h | h
        · exact h
        · exact absurd h hk.1
        · exact absurd h hlt
      intro q hq
      rcases List.mem_cons.1 hq with rfl | hq
      · exact hkk
      · exact strLess_trans _ _ _ hkk (hl.1 q hq)

/-- Building a map from entries with distinct keys. -/
theorem assignAll {α : Type} (l s : List (Str × α)) (hs : KeysAsc s) (hn : ((l ++ s).map (·.1)).Nodup) :
    KeysAsc (l.foldl (fun s p => mapAssign p.1 p.2 s) s) ∧ (l.foldl (fun s p => mapAssign p.1 p.2 s) s).Perm (l ++ s) := by
  induction l generalizing s with
  | nil => exact ⟨hs, List.Perm.refl _⟩
  | cons p l ih =>
    simp only [List.foldl_cons, List.cons_append]
    simp only [List.cons_append, List.map_cons, List.nodup_cons] at hn
    obtain ⟨h1, h2⟩ := mapAssign_new p.1 p.2 s hs (fun h => hn.1 (by simp only [List.map_append, List.mem_append]; exact .inr h))
    have h3 : (l ++ mapAssign p.1 p.2 s).Perm (p :: (l ++ s)) :=
      (h2.append_left l).trans (List.perm_middle)
    obtain ⟨h4, h5⟩ := ih _ h1 ((h3.map _).nodup_iff.2 (by rw [List.map_cons, List.nodup_cons]; exact hn))
    exact ⟨h4, h5.trans h3⟩

theorem keysAsc_unique {α : Type} (l l' : List (Str × α)) (h : KeysAsc l) (h' : KeysAsc l') (hp : l.Perm l') : l = l' := by
  induction l generalizing l' with
  | nil => exact (List.nil_perm.1 hp).symm
  | cons p l ih =>
    cases l' with
    | nil => exact absurd hp.length_eq (by simp)
    | cons q l' =>
      simp only [KeysAsc, List.pairwise_cons] at h h'
      have hpq : p = q := by
        have h1 : p ∈ q :: l' := hp.mem_iff.1 (by simp)
        have h2 : q ∈ p :: l := hp.mem_iff.2 (by simp)
        rcases List.mem_cons.1 h1 with h1 | h1
        · exact h1
        · rcases List.mem_cons.1 h2 with h2 | h2
          · exact h2.symm
          · have := strLess_asymm _ _ (h'.1 p h1)
            rw [h.1 q h2] at this
            cases this
      subst hpq
      rw [ih l' h.2 h'.2 ((List.perm_cons _).1 hp)]

/-- A map is rebuilt from its entries in any order. -/
theorem rebuild {α : Type} (l kvs : List (Str × α)) (hp : l.Perm kvs) (h : KeysAsc kvs) (hn : (kvs.map (·.1)).Nodup) :
    l.foldl (fun s p => mapAssign p.1 p.2 s) [] = kvs := by
  obtain ⟨h1, h2⟩ := assignAll l [] (by simp [KeysAsc]) (by simpa using (hp.map _).nodup_iff.2 hn)
  rw [List.append_nil] at h2
  exact keysAsc_unique _ _ h1 h (h2.trans hp)

theorem findMember_map {α β : Type} (g : α → β) (n : Str) (l : List (Str × α)) :
    findMember n (l.map fun p => (p.1, g p.2)) = (findMember n l).map fun p => (p.1, g p.2) := by
  induction l with
  | nil => rfl
  | cons p l ih =>
    obtain ⟨k, a⟩ := p
    simp only [List.map_cons, findMember, ih]
    by_cases h : k = n
    · simp [h]
    · simp only [if_neg h]
      cases findMember n l <;> rfl

theorem findMember_append {α : Type} (n : Str) (pre : List (Str × α)) (a : α) (rest : List (Str × α)) (h : n ∉ pre.map (·.1)) :
    findMember n (pre ++ (n, a) :: rest) = some (pre.length, a) := by
  induction pre with
  | nil => simp [findMember]
  | cons p pre ih =>
    obtain ⟨k, b⟩ := p
    simp only [List.map_cons, List.mem_cons, not_or] at h
    simp only [List.cons_append, findMember, if_neg (Ne.symm h.1), ih h.2, List.length_cons]

theorem findMember_none {α : Type} (n : Str) (l : List (Str × α)) (h : n ∉ l.map (·.1)) : findMember n l = none := by
  induction l with
  | nil => rfl
  | cons p l ih =>
    obtain ⟨k, b⟩ := p
    simp only [List.map_cons, List.mem_cons, not_or] at h
    simp only [findMember, if_neg (Ne.symm h.1), ih h.2]

theorem cstr_eq (s : Str) (h : 0 ∉ s) : cstr s = s := by
  unfold cstr
  induction s with
  | nil => rfl
  | cons c s ih =>
    simp only [List.mem_cons, not_or] at h
    rw [List.takeWhile_cons, if_pos (by simpa using Ne.symm h.1), ih h.2]

/-! ## Places and references -/

/-- The segments can be written in a path, and lead from the root to the node `j` at `loc`. -/
def AtNode (root : Json) (segs : List Seg) (loc : Loc) (j : Json) : Prop :=
  (∀ x ∈ segs, x.Plain) ∧
    ∀ toks q, pointerGet j toks = some q → pointerGet root (segs.reverse.map segToken ++ toks) = some (loc.reverse ++ q)

theorem AtNode.child {root : Json} {segs : List Seg} {loc : Loc} {j j' : Json} {seg : Seg} {k : Nat} (h : AtNode root segs loc j)
    (hp : seg.Plain) (hc : ∀ toks q, pointerGet j' toks = some q → pointerGet j (segToken seg :: toks) = some (k :: q)) :
    AtNode root (seg :: segs) (k :: loc) j' := by
  refine ⟨?_, ?_⟩
  · intro x hx
    rcases List.mem_cons.1 hx with rfl | hx
    · exact hp
    · exact h.1 x hx
  · intro toks q hq
    have := h.2 _ _ (hc toks q hq)
    simpa using this

/-- The nodes at which shared objects have been read. -/
abbrev DState.locs (st : DState) : List Loc := st.refs.map (·.1)

/-- The new addresses are distinct, and the objects known to the writer are complete. -/
structure Mirror (H : Heap) (ρ : Nat → Nat) (σ : STab) (st : DState) : Prop where
  inj : ∀ a ∈ σ.keys, ∀ b ∈ σ.keys, ρ a = ρ b → a = b
  bound : ∀ a ∈ σ.keys, ρ a < st.next
  closed : Closed H σ

/-- Every object of interest (`B`) known to the writer is known to the reader under the path that the writer
uses. -/
def Linked (H : Heap) (root : Json) (B : Nat → Prop) (ρ : Nat → Nat) (σ : STab) (st : DState) : Prop :=
  ∀ a s, (a, s) ∈ σ → B a → s ≠ [] ∧ (∀ x ∈ s, x.Plain) ∧
    ∃ t w q, H a = some (t, w) ∧ pointerGet root (s.reverse.map segToken) = some q ∧ st.get q.reverse = some (ρ a, t, rename ρ w)

/-- What reading a part does: `P` are the places of new entries, `ads` the addresses in the part. -/
structure Step (H : Heap) (root : Json) (B : Nat → Prop) (P : Loc → Prop) (Q : Prop) (σ σ' : STab) (ρ ρ' : Nat → Nat) (st st' : DState) (ads : List Nat) :
    Prop where
  agree : ∀ a ∈ σ.keys, ρ' a = ρ a
  mirror : Mirror H ρ' σ' st'
  linked : Q → Linked H root B ρ' σ' st'
  next : st.next ≤ st'.next
  newer : ∀ a ∈ σ'.keys, a ∉ σ.keys → st.next ≤ ρ' a
  locs : ∀ ℓ ∈ st'.locs, ℓ ∈ st.locs ∨ P ℓ
  idle : ads = [] → st' = st
  keep : ∀ a ∈ σ.keys, a ∈ σ'.keys

theorem Step.refl {H : Heap} {root : Json} {B : Nat → Prop} {P : Loc → Prop} {Q : Prop} {σ : STab} {ρ : Nat → Nat} {st : DState} {ads : List Nat}
    (h : Mirror H ρ σ st) (h' : Linked H root B ρ σ st) : Step H root B P Q σ σ ρ ρ st st ads where
  agree := fun _ _ => rfl
  mirror := h
  linked := fun _ => h'
  next := Nat.le_refl _
  newer := fun _ h1 h2 => absurd h1 h2
  locs := fun _ h => .inl h
  idle := fun _ => rfl
  keep := fun _ h => h

theorem Step.mono {H : Heap} {root : Json} {B : Nat → Prop} {P P' : Loc → Prop} {Q Q' : Prop} {σ σ' : STab} {ρ ρ' : Nat → Nat} {st st' : DState}
    {ads ads' : List Nat} (h : Step H root B P Q σ σ' ρ ρ' st st' ads) (hP : ∀ ℓ, P ℓ → P' ℓ) (hQ : Q' → Q) (ha : ads' = [] → ads = []) :
    Step H root B P' Q' σ σ' ρ ρ' st st' ads' where
  agree := h.agree
  mirror := h.mirror
  linked := fun hq => h.linked (hQ hq)
  next := h.next
  newer := h.newer
  locs := fun ℓ hℓ => (h.locs ℓ hℓ).imp_right (hP ℓ)
  idle := fun he => h.idle (ha he)
  keep := h.keep

theorem Step.trans {H : Heap} {root : Json} {B : Nat → Prop} {P : Loc → Prop} {Q Q' : Prop} {σ σ1 σ2 : STab} {ρ ρ1 ρ2 : Nat → Nat} {st st1 st2 : DState}
    {ads ads' : List Nat} (h : Step H root B P Q σ σ1 ρ ρ1 st st1 ads) (h' : Step H root B P Q' σ1 σ2 ρ1 ρ2 st1 st2 ads') :
    Step H root B P Q' σ σ2 ρ ρ2 st st2 (ads ++ ads') where
  agree := fun a ha => by rw [h'.agree a (h.keep a ha), h.agree a ha]
  mirror := h'.mirror
  linked := h'.linked
  next := Nat.le_trans h.next h'.next
  newer := fun a ha hn => by
    by_cases h1 : a ∈ σ1.keys
    · rw [h'.agree a h1]
      exact h.newer a h1 hn
    · exact Nat.le_trans h.next (h'.newer a ha h1)
  locs := fun ℓ hℓ => by
    rcases h'.locs ℓ hℓ with hℓ | hℓ
    · exact h.locs ℓ hℓ
    · exact .inr hℓ
  idle := fun he => by
    simp only [List.append_eq_nil_iff] at he
    rw [h'.idle he.2, h.idle he.1]
  keep := fun a ha => h'.keep a (h.keep a ha)

/-! ## The main induction -/

/-- What serialization does, for a given outcome. -/
theorem ser_facts (env : Env) (hfair : env.Fair) (H : Heap) (v : Val) (t : Ty) (segs : List Seg) (σ σ' : STab) (j : Json) (ht : HasTy env H v t)
    (hf : finite v = true) (h : ser env v t segs σ = .done σ' (some j)) (hc : Closed H σ) :
    Closed H σ' ∧ (∀ a ∈ addrs v, a ∈ σ'.keys) ∧ (∀ a ∈ σ.keys, a ∈ σ'.keys) ∧ (addrs v = [] → σ' = σ) ∧
      ∃ pos tr, Shows env v t pos j tr := by
  obtain ⟨new, j', tr, h1, h2, h3⟩ := serOk env hfair H v t segs [] σ ht hf
  rw [h1] at h
  simp only [SRes.done.injEq, Option.some.injEq] at h
  obtain ⟨rfl, rfl⟩ := h
  obtain ⟨h4, h5⟩ := h3.all hc
  refine ⟨h4, h5, ?_, ?_, [], tr, h2⟩
  · intro a ha
    simp only [STab.keys, List.map_append, List.mem_append] at ha ⊢
    exact .inr ha
  · intro he
    rw [(h3.noaddr (segs' := []) (pos' := []) (res' := fun _ => none)).1 he]
    rfl

/-- The value written as `j` is read back. -/
def ReadBack (env : Env) (H : Heap) (root : Json) (B : Nat → Prop) (v : Val) : Prop :=
  ∀ t segs loc σ σ' j ρ st, HasTy env H v t → finite v = true → Readable env v t → (∀ a ∈ addrs v, B a) →
    (addrs v ≠ [] → env.PlainNames ∧ PathSafe v) → ser env v t segs σ = .done σ' (some j) →
    (addrs v ≠ [] → AtNode root segs loc j) → Mirror H ρ σ st → Linked H root B ρ σ st → (∀ ℓ ∈ st.locs, ¬ loc <:+ ℓ) →
    ∃ ρ' st', (∀ exc target segs', deser env root j exc t target loc segs' st = .done true (rename ρ' v) st') ∧
      Step H root B (fun ℓ => loc <:+ ℓ ∧ (t.topShared = false → ℓ ≠ loc)) (segs ≠ []) σ σ' ρ ρ' st st' (addrs v)

theorem suffix_child {k : Nat} {loc ℓ : Loc} (h : k :: loc <:+ ℓ) : loc <:+ ℓ ∧ ℓ ≠ loc := by
  refine ⟨(List.suffix_cons k loc).trans h, ?_⟩
  rintro rfl
  have := h.length_le
  simp at this
  omega

theorem suffix_inj {k n : Nat} {loc ℓ : Loc} (h : k :: loc <:+ ℓ) (h' : n :: loc <:+ ℓ) : k = n := by
  have := List.suffix_of_suffix_length_le h h' (by simp)
  have := this.eq_of_length (by simp)
  simpa using this

theorem serMembers_names (env : Env) (vs : List Val) : ∀ ms segs σ σ' js, serMembers env vs ms segs σ = .done σ' (some js) →
    ∀ n ∈ js.map (·.1), n ∈ ms.map (·.name) := by
  induction vs with
  | nil =>
    intro ms segs σ σ' js h
    cases ms with
    | nil => simp only [serMembers, SRes.done.injEq, Option.some.injEq] at h; simp [← h.2]
    | cons => simp [serMembers] at h
  | cons v vs ih =>
    intro ms segs σ σ' js h
    cases ms with
    | nil => simp [serMembers] at h
    | cons m ms =>
      rw [serMembers_cons] at h
      intro n hn
      simp only [List.map_cons, List.mem_cons]
      cases hk : fieldOf m.kind v with
      | bad => simp [hk] at h
      | skip =>
        simp only [hk] at h
        exact .inr (ih ms segs σ σ' js h n hn)
      | here w =>
        simp only [hk] at h
        cases h1 : ser env w m.ty (Seg.name m.name :: segs) σ with
        | ub => simp [h1] at h
        | done σ1 r =>
          cases r with
          | none =>
            simp only [h1] at h
            exact .inr (ih ms segs σ1 σ' js h n hn)
          | some j =>
            simp only [h1] at h
            cases h2 : serMembers env vs ms segs σ1 with
            | ub => simp [h2, SRes.map] at h
            | done σ2 r =>
              cases r with
              | none => simp [h2, SRes.map] at h
              | some js' =>
                simp only [h2, SRes.map, Option.map_some, SRes.done.injEq, Option.some.injEq] at h
                obtain ⟨rfl, rfl⟩ := h
                simp only [List.map_cons, List.mem_cons] at hn
                exact hn.imp_right (ih ms segs σ1 _ js' h2 n)

theorem Readable_field {env : Env} {H : Heap} {m : Member} {v w : Val} {vs : List Val} {ms : List Member} (h : fieldOf m.kind v = .here w)
    (ht : HasTy env H w m.ty) (hr : ReadableMembers env (v :: vs) (m :: ms)) : Readable env w m.ty := by
  rcases fieldOf_here h with ⟨-, rfl⟩ | ⟨ho, rfl⟩
  · simp only [ReadableMembers] at hr
    exact hr.1
  · cases v <;> first | (simp only [ReadableMembers] at hr; exact hr.1) | (simp [HasTy] at ht)

theorem ReadableMembers_tail {env : Env} {m : Member} {v : Val} {vs : List Val} {ms : List Member}
    (hr : ReadableMembers env (v :: vs) (m :: ms)) : ReadableMembers env vs ms := by
  cases v <;> (simp only [ReadableMembers] at hr; exact hr.2)

section
variable (env : Env) (hfair : env.Fair) (hclk : 0 < env.clk) (hdist : env.DistinctNames) (H : Heap) (root : Json) (B : Nat → Prop)

include hfair

theorem back_items (vs : List Val) (hv : ∀ v ∈ vs, ReadBack env H root B v) :
    ∀ ts k segs loc σ σ' js pre ρ st, HasTys env H vs ts → finiteAll vs = true → Readables env vs ts → (∀ a ∈ addrsAll vs, B a) → pre.length = k →
      (addrsAll vs ≠ [] → env.PlainNames ∧ k + vs.length < 2 ^ 32 - 1 ∧ PathSafeAll vs) →
      serItems env vs ts k segs σ = .done σ' (some js) → (addrsAll vs ≠ [] → AtNode root segs loc (.arr (pre ++ js))) →
      Mirror H ρ σ st → Linked H root B ρ σ st → (∀ ℓ ∈ st.locs, ∀ n ≥ k, ¬ n :: loc <:+ ℓ) →
      js.length = ts.length ∧
      ∃ ρ' st', (∀ exc segs', (∀ targets, runTuple env exc (js.map (deser env root)) ts targets k loc segs' st = .done true (renameAll ρ' vs) st') ∧
          ∀ t, ts = List.replicate ts.length t → runSame env t exc (js.map (deser env root)) k loc segs' st = .done true (renameAll ρ' vs) st') ∧
        Step H root B (fun ℓ => ∃ n ≥ k, n :: loc <:+ ℓ) True σ σ' ρ ρ' st st' (addrsAll vs) := by
  induction vs with
  | nil =>
    intro ts k segs loc σ σ' js pre ρ st ht _ _ _ _ _ hs _ hm hl _
    cases ts with
    | cons => simp [HasTys] at ht
    | nil =>
      simp only [serItems, SRes.done.injEq, Option.some.injEq] at hs
      obtain ⟨rfl, rfl⟩ := hs
      exact ⟨rfl, ρ, st, fun exc segs' => ⟨fun _ => by simp [runTuple, renameAll], fun _ _ => by simp [runSame, renameAll]⟩, Step.refl hm hl⟩
  | cons v vs ih =>
    intro ts k segs loc σ σ' js pre ρ st ht hf hr hB hk hsafe hs hat hm hl hfresh
    cases ts with
    | nil => simp [HasTys] at ht
    | cons t ts =>
      simp only [HasTys] at ht
      simp only [finiteAll, Bool.and_eq_true] at hf
      simp only [Readables] at hr
      simp only [addrsAll] at hsafe hat hB ⊢
      have hne1 : addrs v ≠ [] → addrs v ++ addrsAll vs ≠ [] := by
        intro h h'; simp only [List.append_eq_nil_iff] at h'; exact h h'.1
      have hne2 : addrsAll vs ≠ [] → addrs v ++ addrsAll vs ≠ [] := by
        intro h h'; simp only [List.append_eq_nil_iff] at h'; exact h h'.2
      simp only [serItems] at hs
      cases h1 : ser env v t (.index k :: segs) σ with
      | ub => simp [h1] at hs
      | done σ1 r =>
        cases r with
        | none => simp [h1] at hs
        | some j =>
          simp only [h1] at hs
          cases h2 : serItems env vs ts (k + 1) segs σ1 with
          | ub => simp [h2, SRes.map] at hs
          | done σ2 r =>
            cases r with
            | none => simp [h2, SRes.map] at hs
            | some js' =>
              simp only [h2, SRes.map, Option.map_some, SRes.done.injEq, Option.some.injEq] at hs
              obtain ⟨rfl, rfl⟩ := hs
              obtain ⟨-, hads, -, -, -⟩ := ser_facts env hfair H v t _ σ σ1 j ht.1 hf.1 h1 hm.closed
              obtain ⟨ρ1, st1, hd1, hst1⟩ := hv v (by simp) t (.index k :: segs) (k :: loc) σ σ1 j ρ st ht.1 hf.1 hr.1 (fun a ha => hB a (List.mem_append.2 (.inl ha)))
                (fun h => by
                  obtain ⟨hp, -, hq⟩ := hsafe (hne1 h)
                  simp only [PathSafeAll] at hq
                  exact ⟨hp, hq.1⟩) h1
                (fun h => by
                  obtain ⟨-, hlen, -⟩ := hsafe (hne1 h)
                  simp only [List.length_cons] at hlen
                  refine (hat (hne1 h)).child (show k < 2 ^ 32 - 1 by omega) ?_
                  intro toks q hq
                  simp only [pointerGet, segToken, tokenIndex_decimal k (by omega)]
                  rw [List.getElem?_append_right (by omega)]
                  simp [hk, hq]) hm hl (fun ℓ hℓ => hfresh ℓ hℓ k (Nat.le_refl _))
              have hst1' := hst1.mono (P' := fun ℓ => ∃ n ≥ k, n :: loc <:+ ℓ) (Q' := True) (ads' := addrs v)
                (fun ℓ h => ⟨k, Nat.le_refl _, h.1⟩) (by simp) (fun h => h)
              obtain ⟨hlen, ρ2, st2, hd2, hst2⟩ := ih (fun w hw => hv w (by simp [hw])) ts (k + 1) segs loc σ1 σ2 js' (pre ++ [j]) ρ1 st1 ht.2 hf.2 hr.2 (fun a ha => hB a (List.mem_append.2 (.inr ha)))
                (by simp [hk])
                (fun h => by
                  obtain ⟨hp, hlen, hq⟩ := hsafe (hne2 h)
                  simp only [PathSafeAll, List.length_cons] at hq hlen
                  exact ⟨hp, by omega, hq.2⟩) h2
                (fun h => by simpa using hat (hne2 h)) hst1.mirror (hst1'.linked trivial)
                (fun ℓ hℓ n hn hsuf => by
                  rcases hst1.locs ℓ hℓ with hℓ | hℓ
                  · exact hfresh ℓ hℓ n (by omega) hsuf
                  · have := suffix_inj hsuf hℓ.1
                    omega)
              have heq : rename ρ1 v = rename ρ2 v :=
                rename_congr _ _ _ (fun a ha => (hst2.agree a (hads a ha)).symm)
              refine ⟨by simp [hlen], ρ2, st2, ?_, hst1'.trans (hst2.mono (fun ℓ ⟨n, hn, h⟩ => ⟨n, by omega, h⟩) (fun h => h) (fun h => h))⟩
              intro exc segs'
              obtain ⟨hd3, hd4⟩ := hd2 exc segs'
              refine ⟨fun targets => ?_, fun t' ht' => ?_⟩
              · simp only [List.map_cons, runTuple, hd1, hd3, DRes.map, renameAll, heq]
              · simp only [List.length_cons, List.replicate_succ, List.cons.injEq] at ht'
                obtain ⟨rfl, ht'⟩ := ht'
                simp only [List.map_cons, runSame, hd1, hd4 t ht', DRes.map, renameAll, heq]

theorem back_set (t : Ty) (vs : List Val) (hv : ∀ v ∈ vs, ReadBack env H root B v) :
    ∀ k segs loc σ σ' js ρ st, (∀ v ∈ vs, HasTy env H v t) → finiteAll vs = true → ReadableAll env vs t → addrsAll vs = [] →
      serSet env vs t segs σ = .done σ' (some js) → Mirror H ρ σ st → Linked H root B ρ σ st →
      (∀ ℓ ∈ st.locs, ∀ n ≥ k, ¬ n :: loc <:+ ℓ) →
      σ' = σ ∧ ∀ exc segs', runSame env t exc (js.map (deser env root)) k loc segs' st = .done true vs st := by
  induction vs with
  | nil =>
    intro k segs loc σ σ' js ρ st _ _ _ _ hs _ _ _
    simp only [serSet, SRes.done.injEq, Option.some.injEq] at hs
    obtain ⟨rfl, rfl⟩ := hs
    exact ⟨rfl, fun exc segs' => by simp [runSame]⟩
  | cons v vs ih =>
    intro k segs loc σ σ' js ρ st ht hf hr hno hs hm hl hfresh
    simp only [finiteAll, Bool.and_eq_true] at hf
    simp only [ReadableAll] at hr
    simp only [addrsAll, List.append_eq_nil_iff] at hno
    simp only [serSet] at hs
    cases h1 : ser env v t segs σ with
    | ub => simp [h1] at hs
    | done σ1 r =>
      cases r with
      | none => simp [h1] at hs
      | some j =>
        simp only [h1] at hs
        cases h2 : serSet env vs t segs σ1 with
        | ub => simp [h2, SRes.map] at hs
        | done σ2 r =>
          cases r with
          | none => simp [h2, SRes.map] at hs
          | some js' =>
            simp only [h2, SRes.map, Option.map_some, SRes.done.injEq, Option.some.injEq] at hs
            obtain ⟨rfl, rfl⟩ := hs
            obtain ⟨-, -, -, hsame, -⟩ := ser_facts env hfair H v t _ σ σ1 j (ht v (by simp)) hf.1 h1 hm.closed
            have hσ := hsame hno.1
            subst hσ
            obtain ⟨ρ1, st1, hd1, hst1⟩ := hv v (by simp) t segs (k :: loc) _ _ j ρ st (ht v (by simp)) hf.1 hr.1 (by simp [hno.1])
              (fun h => absurd hno.1 h) h1 (fun h => absurd hno.1 h) hm hl (fun ℓ hℓ => hfresh ℓ hℓ k (Nat.le_refl _))
            have hst := hst1.idle hno.1
            subst hst
            obtain ⟨hσ, hd2⟩ := ih (fun w hw => hv w (by simp [hw])) (k + 1) segs loc _ σ2 js' ρ _ (fun w hw => ht w (by simp [hw])) hf.2 hr.2 hno.2 h2 hm hl
              (fun ℓ hℓ n hn => hfresh ℓ hℓ n (by omega))
            refine ⟨hσ, fun exc segs' => ?_⟩
            simp only [List.map_cons, runSame, hd1, hd2, DRes.map, rename_noaddr _ _ hno.1]

theorem back_vals (t : Ty) (kvs : List (Str × Val)) (hv : ∀ p ∈ kvs, ReadBack env H root B p.2) :
    ∀ k segs loc σ σ' js pre ρ st, (∀ p ∈ kvs, HasTy env H p.2 t) → (∀ p ∈ kvs, finite p.2 = true) → (∀ p ∈ kvs, 0 ∉ p.1 ∧ Readable env p.2 t) → (∀ a ∈ addrsVals kvs, B a) →
      pre.length = k → (kvs.map (·.1)).Nodup → (∀ p ∈ kvs, p.1 ∉ pre.map (·.1)) →
      (addrsVals kvs ≠ [] → env.PlainNames ∧ PathSafeVals kvs) →
      serEntries (kvs.map fun p => (p.1, ser env p.2 t)) segs σ = .done σ' (some js) →
      (addrsVals kvs ≠ [] → AtNode root segs loc (.obj (pre ++ js))) →
      Mirror H ρ σ st → Linked H root B ρ σ st → (∀ ℓ ∈ st.locs, ∀ n ≥ k, ¬ n :: loc <:+ ℓ) →
      ∃ ρ' st', (∀ exc segs', runEntries env t exc (js.map fun p => (p.1, deser env root p.2)) k loc segs' st = .done true (renameVals ρ' kvs) st') ∧
        Step H root B (fun ℓ => ∃ n ≥ k, n :: loc <:+ ℓ) True σ σ' ρ ρ' st st' (addrsVals kvs) := by
  induction kvs with
  | nil =>
    intro k segs loc σ σ' js pre ρ st _ _ _ _ _ _ _ _ hs _ hm hl _
    simp only [List.map_nil, serEntries, SRes.done.injEq, Option.some.injEq] at hs
    obtain ⟨rfl, rfl⟩ := hs
    exact ⟨ρ, st, fun exc segs' => by simp [runEntries, renameVals], Step.refl hm hl⟩
  | cons p kvs ih =>
    obtain ⟨key, v⟩ := p
    intro k segs loc σ σ' js pre ρ st ht hf hr hB hk hnd hpre hsafe hs hat hm hl hfresh
    simp only [addrsVals] at hsafe hat hB ⊢
    have hne1 : addrs v ≠ [] → addrs v ++ addrsVals kvs ≠ [] := by
      intro h h'; simp only [List.append_eq_nil_iff] at h'; exact h h'.1
    have hne2 : addrsVals kvs ≠ [] → addrs v ++ addrsVals kvs ≠ [] := by
      intro h h'; simp only [List.append_eq_nil_iff] at h'; exact h h'.2
    have htv := ht _ (List.mem_cons_self ..)
    have hfv := hf _ (List.mem_cons_self ..)
    have hrv := hr _ (List.mem_cons_self ..)
    simp only at htv hfv hrv
    simp only [List.map_cons, List.nodup_cons] at hnd
    simp only [List.map_cons, serEntries] at hs
    cases h1 : ser env v t (Seg.name key :: segs) σ with
    | ub => simp [h1] at hs
    | done σ1 r =>
      cases r with
      | none => simp [h1] at hs
      | some j =>
        simp only [h1] at hs
        cases h2 : serEntries (kvs.map fun p => (p.1, ser env p.2 t)) segs σ1 with
        | ub => simp [h2, SRes.map] at hs
        | done σ2 r =>
          cases r with
          | none => simp [h2, SRes.map] at hs
          | some js' =>
            simp only [h2, SRes.map, Option.map_some, SRes.done.injEq, Option.some.injEq] at hs
            obtain ⟨rfl, rfl⟩ := hs
            obtain ⟨-, hads, -, -, -⟩ := ser_facts env hfair H v t _ σ σ1 j htv hfv h1 hm.closed
            obtain ⟨ρ1, st1, hd1, hst1⟩ := hv (key, v) (by simp) t (Seg.name key :: segs) (k :: loc) σ σ1 j ρ st htv hfv hrv.2 (fun a ha => hB a (List.mem_append.2 (.inl ha)))
              (fun h => by
                obtain ⟨hp, hq⟩ := hsafe (hne1 h)
                simp only [PathSafeVals] at hq
                exact ⟨hp, hq.2.1⟩) h1
              (fun h => by
                obtain ⟨-, hq⟩ := hsafe (hne1 h)
                simp only [PathSafeVals] at hq
                refine (hat (hne1 h)).child (name_plain key hq.1) ?_
                intro toks q hq'
                have hkey : segToken (Seg.name key) = key := by simp [Seg.name, hq.1.1, segToken]
                simp only [pointerGet, hkey, findMember_append key pre j js' (hpre (key, v) (by simp)), hq', hk, Option.map_some])
              hm hl (fun ℓ hℓ => hfresh ℓ hℓ k (Nat.le_refl _))
            have hst1' := hst1.mono (P' := fun ℓ => ∃ n ≥ k, n :: loc <:+ ℓ) (Q' := True) (ads' := addrs v)
              (fun ℓ h => ⟨k, Nat.le_refl _, h.1⟩) (by simp) (fun h => h)
            obtain ⟨ρ2, st2, hd2, hst2⟩ := ih (fun w hw => hv w (by simp [hw])) (k + 1) segs loc σ1 σ2 js' (pre ++ [(key, j)]) ρ1 st1
              (fun w hw => ht w (by simp [hw])) (fun w hw => hf w (by simp [hw])) (fun w hw => hr w (by simp [hw])) (fun a ha => hB a (List.mem_append.2 (.inr ha))) (by simp [hk]) hnd.2
              (fun w hw => by
                simp only [List.map_append, List.map_cons, List.map_nil, List.mem_append, List.mem_singleton, not_or]
                refine ⟨hpre w (by simp [hw]), ?_⟩
                intro he
                exact hnd.1 (he ▸ List.mem_map.2 ⟨w, hw, rfl⟩))
              (fun h => by
                obtain ⟨hp, hq⟩ := hsafe (hne2 h)
                simp only [PathSafeVals] at hq
                exact ⟨hp, hq.2.2⟩) h2
              (fun h => by simpa using hat (hne2 h)) hst1.mirror (hst1'.linked trivial)
              (fun ℓ hℓ n hn hsuf => by
                rcases hst1.locs ℓ hℓ with hℓ | hℓ
                · exact hfresh ℓ hℓ n (by omega) hsuf
                · have := suffix_inj hsuf hℓ.1
                  omega)
            have heq : rename ρ1 v = rename ρ2 v :=
              rename_congr _ _ _ (fun a ha => (hst2.agree a (hads a ha)).symm)
            refine ⟨ρ2, st2, ?_, hst1'.trans (hst2.mono (fun ℓ ⟨n, hn, h⟩ => ⟨n, by omega, h⟩) (fun h => h) (fun h => h))⟩
            intro exc segs'
            simp only [List.map_cons, runEntries, hd1, hd2, DRes.map, renameVals, heq, cstr_eq key hrv.1]

theorem back_members (vs : List Val) (hv : ∀ w, sizeOf w < 1 + sizeOf vs → ReadBack env H root B w) :
    ∀ ms k segs loc σ σ' js pre ρ st, MembersTy env H vs ms → finiteAll vs = true → ReadableMembers env vs ms → (∀ a ∈ addrsAll vs, B a) → pre.length = k →
      (ms.map (·.name)).Nodup → (∀ m ∈ ms, m.name ∉ pre.map (·.1)) →
      (addrsAll vs ≠ [] → env.PlainNames ∧ PathSafeAll vs ∧ ∀ m ∈ ms, PlainName m.name) →
      serMembers env vs ms segs σ = .done σ' (some js) → (addrsAll vs ≠ [] → AtNode root segs loc (.obj (pre ++ js))) →
      Mirror H ρ σ st → Linked H root B ρ σ st → (∀ ℓ ∈ st.locs, ∀ n ≥ k, ¬ n :: loc <:+ ℓ) →
      ∃ ρ' st', (∀ exc segs' targets, runMembers env exc ((pre ++ js).map fun p => (p.1, deser env root p.2)) loc segs' ms targets true st =
          .done true (renameAll ρ' vs) st') ∧
        Step H root B (fun ℓ => ∃ n ≥ k, n :: loc <:+ ℓ) True σ σ' ρ ρ' st st' (addrsAll vs) := by
  induction vs with
  | nil =>
    intro ms k segs loc σ σ' js pre ρ st ht _ _ _ _ _ _ _ hs _ hm hl _
    cases ms with
    | cons => simp [MembersTy] at ht
    | nil =>
      simp only [serMembers, SRes.done.injEq, Option.some.injEq] at hs
      obtain ⟨rfl, rfl⟩ := hs
      exact ⟨ρ, st, fun exc segs' targets => by simp [runMembers, renameAll], Step.refl hm hl⟩
  | cons v vs ih =>
    intro ms k segs loc σ σ' js pre ρ st ht hf hr hB hk hnd hpre hsafe hs hat hm hl hfresh
    have ih' := ih (fun w hw => hv w (by simp only [List.cons.sizeOf_spec]; omega))
    cases ms with
    | nil => simp [MembersTy] at ht
    | cons m ms =>
      rw [MembersTy_cons] at ht
      simp only [finiteAll, Bool.and_eq_true] at hf
      simp only [addrsAll] at hsafe hat hB ⊢
      simp only [List.map_cons, List.nodup_cons] at hnd
      have hne1 : addrs v ≠ [] → addrs v ++ addrsAll vs ≠ [] := by
        intro h h'; simp only [List.append_eq_nil_iff] at h'; exact h h'.1
      have hne2 : addrsAll vs ≠ [] → addrs v ++ addrsAll vs ≠ [] := by
        intro h h'; simp only [List.append_eq_nil_iff] at h'; exact h h'.2
      rw [serMembers_cons] at hs
      cases hkd : fieldOf m.kind v with
      | bad => simp [hkd] at ht
      | skip =>
        obtain ⟨hopt, rfl⟩ := fieldOf_skip hkd
        simp only [hkd] at hs
        obtain ⟨ρ', st', hd, hst⟩ := ih' ms k segs loc σ σ' js pre ρ st ht.2 hf.2 (ReadableMembers_tail hr) (fun a ha => hB a (List.mem_append.2 (.inr ha))) hk hnd.2 (fun m hm => hpre m (by simp [hm]))
          (fun h => by
            obtain ⟨hp, hq, hr⟩ := hsafe (hne2 h)
            simp only [PathSafeAll] at hq
            exact ⟨hp, hq.2, fun m hm => hr m (by simp [hm])⟩) hs (fun h => hat (hne2 h)) hm hl hfresh
        refine ⟨ρ', st', ?_, hst.mono (fun _ h => h) (fun h => h) (by simp [addrs])⟩
        intro exc segs' targets
        have hnone : findMember m.name (pre ++ js) = none := by
          apply findMember_none
          rw [List.map_append, List.mem_append, not_or]
          exact ⟨hpre m (by simp), fun h => hnd.1 (serMembers_names env vs ms segs σ σ' js hs _ h)⟩
        simp only [runMembers, findMember_map, hnone, Option.map_none, hopt, hd, DRes.map, renameAll, rename]
      | here w =>
        simp only [hkd] at ht hs
        have hadr := addrs_field hkd
        have hw : ReadBack env H root B w := hv w (by have := fieldOf_size hkd; simp only [List.cons.sizeOf_spec]; omega)
        have hrw := Readable_field hkd ht.1 hr
        cases h1 : ser env w m.ty (Seg.name m.name :: segs) σ with
        | ub => simp [h1] at hs
        | done σ1 r =>
          have hfw : finite w = true := by rw [← finite_field hkd]; exact hf.1
          cases r with
          | none =>
            obtain ⟨new, j', tr, h1', -, -⟩ := serOk env hfair H w m.ty (Seg.name m.name :: segs) [] σ ht.1 hfw
            rw [h1'] at h1
            simp at h1
          | some j =>
            simp only [h1] at hs
            cases h2 : serMembers env vs ms segs σ1 with
            | ub => simp [h2, SRes.map] at hs
            | done σ2 r =>
              cases r with
              | none => simp [h2, SRes.map] at hs
              | some js' =>
                simp only [h2, SRes.map, Option.map_some, SRes.done.injEq, Option.some.injEq] at hs
                obtain ⟨rfl, rfl⟩ := hs
                obtain ⟨-, hads, -, -, -⟩ := ser_facts env hfair H w m.ty _ σ σ1 j ht.1 hfw h1 hm.closed
                have hfind : findMember m.name (pre ++ (m.name, j) :: js') = some (k, j) := by
                  rw [findMember_append m.name pre j js' (hpre m (by simp)), hk]
                obtain ⟨ρ1, st1, hd1, hst1⟩ := hw m.ty (Seg.name m.name :: segs) (k :: loc) σ σ1 j ρ st ht.1 hfw hrw (fun a ha => hB a (List.mem_append.2 (.inl (by rwa [hadr]))))
                  (fun h => by
                    obtain ⟨hp, hq, -⟩ := hsafe (hne1 (by rwa [hadr]))
                    simp only [PathSafeAll] at hq
                    rw [← PathSafe_field hkd]
                    exact ⟨hp, hq.1⟩) h1
                  (fun h => by
                    obtain ⟨-, -, hq⟩ := hsafe (hne1 (by rwa [hadr]))
                    have hq := hq m (by simp)
                    refine (hat (hne1 (by rwa [hadr]))).child (name_plain _ hq) ?_
                    intro toks q hq'
                    have hkey : segToken (Seg.name m.name) = m.name := by simp [Seg.name, hq.1, segToken]
                    simp only [pointerGet, hkey, hfind, hq', Option.map_some])
                  hm hl (fun ℓ hℓ => hfresh ℓ hℓ k (Nat.le_refl _))
                have hst1' := hst1.mono (P' := fun ℓ => ∃ n ≥ k, n :: loc <:+ ℓ) (Q' := True) (ads' := addrs v)
                  (fun ℓ h => ⟨k, Nat.le_refl _, h.1⟩) (by simp) (fun h => by rwa [← hadr])
                obtain ⟨ρ2, st2, hd2, hst2⟩ := ih' ms (k + 1) segs loc σ1 σ2 js' (pre ++ [(m.name, j)]) ρ1 st1 ht.2 hf.2 (ReadableMembers_tail hr) (fun a ha => hB a (List.mem_append.2 (.inr ha))) (by simp [hk]) hnd.2
                  (fun m' hm' => by
                    simp only [List.map_append, List.map_cons, List.map_nil, List.mem_append, List.mem_singleton, not_or]
                    refine ⟨hpre m' (by simp [hm']), ?_⟩
                    intro he
                    exact hnd.1 (he ▸ List.mem_map.2 ⟨m', hm', rfl⟩))
                  (fun h => by
                    obtain ⟨hp, hq, hr⟩ := hsafe (hne2 h)
                    simp only [PathSafeAll] at hq
                    exact ⟨hp, hq.2, fun m hm => hr m (by simp [hm])⟩) h2
                  (fun h => by simpa using hat (hne2 h)) hst1.mirror (hst1'.linked trivial)
                  (fun ℓ hℓ n hn hsuf => by
                    rcases hst1.locs ℓ hℓ with hℓ | hℓ
                    · exact hfresh ℓ hℓ n (by omega) hsuf
                    · have := suffix_inj hsuf hℓ.1
                      omega)
                have heq : rename ρ1 w = rename ρ2 w :=
                  rename_congr _ _ _ (fun a ha => (hst2.agree a (hads a ha)).symm)
                refine ⟨ρ2, st2, ?_, hst1'.trans (hst2.mono (fun ℓ ⟨n, hn, h⟩ => ⟨n, by omega, h⟩) (fun h => h) (fun h => h))⟩
                intro exc segs' targets
                have hd2' := hd2 exc segs' targets.tail
                simp only [List.append_assoc, List.cons_append, List.nil_append] at hd2'
                simp only [runMembers, findMember_map, hfind, Option.map_some, hd1, hd2', DRes.map, renameAll, heq]
                rcases fieldOf_here hkd with ⟨ho, rfl⟩ | ⟨ho, rfl⟩
                · simp only [ho, if_true, rename]
                · simp only [if_neg ho]

end

/-- Earlier alternatives reject, the one that was written accepts. -/
theorem tryAll_skip (env : Env) (root j : Json) (v' : Val) (st' : DState) (t : Ty) (ts : List Ty) : ∀ (i n : Nat) (loc : Loc) (segs : List Seg) (st : DState),
    ts[i]? = some t → (∀ k t', k < i → ts[k]? = some t' → Rejects env t' j) →
    deser env root j false t (env.fresh t) loc segs st = .done true v' st' →
    tryAll env root j ts n loc segs st = .done true (.alt (n + i) v') st' := by
  induction ts with
  | nil => simp
  | cons t0 ts ih =>
    intro i n loc segs st hi hrej hd
    cases i with
    | zero =>
      simp only [List.getElem?_cons_zero, Option.some.injEq] at hi
      subst hi
      simp only [tryAll, hd, Nat.add_zero]
    | succ i =>
      obtain ⟨w, hw⟩ := hrej 0 t0 (by omega) (by simp) root loc segs st
      simp only [tryAll, hw]
      rw [ih i (n + 1) loc segs st (by simpa using hi) (fun k t' hk h => hrej (k + 1) t' (by omega) (by simpa using h)) hd]
      simp only [DRes.done.injEq, Val.alt.injEq, and_true, true_and]
      omega

theorem topSharedAny_false {ts : List Ty} (h : Ty.topShared.topSharedAny ts = false) {i : Nat} {t : Ty} (hi : ts[i]? = some t) :
    t.topShared = false := by
  induction ts generalizing i with
  | nil => simp at hi
  | cons t0 ts ih =>
    simp only [Ty.topShared.topSharedAny, Bool.or_eq_false_iff] at h
    cases i with
    | zero => simp only [List.getElem?_cons_zero, Option.some.injEq] at hi; exact hi ▸ h.1
    | succ i => exact ih h.2 (by simpa using hi)

theorem showsVals_keys {env : Env} {kvs : List (Str × Val)} {t : Ty} {pos : List Nat} {k : Nat} {js : List (Str × Json)} {tr : List Occ}
    (h : ShowsVals env kvs t pos k js tr) : js.map (·.1) = kvs.map (·.1) := by
  induction kvs generalizing k js tr with
  | nil => cases h; rfl
  | cons p kvs ih =>
    cases h with
    | cons h1 h2 => simp [ih h2]

theorem showsMembers_keys {env : Env} {vs : List Val} {ms : List Member} {pos : List Nat} {k : Nat} {js : List (Str × Json)} {tr : List Occ}
    (h : ShowsMembers env vs ms pos k js tr) : ∀ n ∈ js.map (·.1), n ∈ ms.map (·.name) := by
  induction vs generalizing ms k js tr with
  | nil => cases h; simp
  | cons v vs ih =>
    intro n hn
    cases h with
    | skip h1 h2 => simp only [List.map_cons, List.mem_cons]; exact .inr (ih h2 n hn)
    | engaged h1 h2 h3 =>
      simp only [List.map_cons, List.mem_cons] at hn ⊢
      exact hn.imp_right (ih h3 n)
    | plain h1 h2 h3 =>
      simp only [List.map_cons, List.mem_cons] at hn ⊢
      exact hn.imp_right (ih h3 n)

/-- The text of a value without a key `"$ref"` at its top is not taken for a reference. -/
theorem noRef (env : Env) (v : Val) : ∀ t pos j tr, t.topShared = false → lit "$ref" ∉ topKeys env v t → Shows env v t pos j tr →
    refMember j = none := by
  induction v using Val.strong with
  | h v ih =>
  intro t pos j tr hts hk h
  cases h with
  | prim hp =>
    rename_i p k
    cases j with
    | obj ms =>
      exfalso
      cases k <;> cases p <;> try (cases hp)
      · rw [serPrim_flt] at hp; split at hp <;> cases hp
      · rw [serPrim_date] at hp; split at hp <;> cases hp
    | _ => rfl
  | vec => rfl
  | arr => rfl
  | tuple => rfl
  | set => rfl
  | map hp ho hv =>
    simp only [refMember]
    rw [findMember_none]
    · rfl
    · rw [showsVals_keys hv, (hp.map _).mem_iff]
      simpa only [topKeys] using hk
  | dict hv =>
    simp only [refMember]
    rw [findMember_none]
    · rfl
    · rw [showsVals_keys hv]
      simpa only [topKeys] using hk
  | alt hi h' =>
    rename_i i w ts t
    simp only [Ty.topShared] at hts
    simp only [topKeys, hi] at hk
    exact ih w (by simp; omega) t pos j tr (topSharedAny_false hts hi) hk h'
  | cls hm =>
    simp only [refMember]
    rw [findMember_none]
    · rfl
    · intro hn
      exact hk (by simp only [topKeys]; exact showsMembers_keys hm _ hn)
  | uptr h' =>
    rename_i w t
    simp only [Ty.topShared] at hts
    simp only [topKeys] at hk
    exact ih w (by simp) t pos j tr hts hk h'
  | full => simp [Ty.topShared] at hts
  | ref => simp [Ty.topShared] at hts

theorem map_done {α β : Type} {f : α → β} {r : SRes α} {σ : STab} {b : β} (h : r.map f = .done σ (some b)) :
    ∃ a, r = .done σ (some a) ∧ f a = b := by
  cases r with
  | ub => simp [SRes.map] at h
  | done σ' r =>
    cases r with
    | none => simp [SRes.map] at h
    | some a =>
      simp only [SRes.map, Option.map_some, SRes.done.injEq, Option.some.injEq] at h
      obtain ⟨rfl, rfl⟩ := h
      exact ⟨a, rfl, rfl⟩

theorem Step.compose {H : Heap} {root : Json} {B : Nat → Prop} {t : Ty} {segs : List Seg} {loc : Loc} {σ σ' : STab} {ρ ρ' : Nat → Nat} {st st' : DState}
    {ads : List Nat} (h : Step H root B (fun ℓ => ∃ n ≥ 0, n :: loc <:+ ℓ) True σ σ' ρ ρ' st st' ads) :
    Step H root B (fun ℓ => loc <:+ ℓ ∧ (t.topShared = false → ℓ ≠ loc)) (segs ≠ []) σ σ' ρ ρ' st st' ads :=
  h.mono (fun _ ⟨_, _, hs⟩ => ⟨(suffix_child hs).1, fun _ => (suffix_child hs).2⟩) (fun _ => trivial) (fun h => h)

/-- What was written is read back. -/
theorem readBack (env : Env) (hfair : env.Fair) (hclk : 0 < env.clk) (hdist : env.DistinctNames) (H : Heap) (root : Json) (B : Nat → Prop) :
    ∀ v, ReadBack env H root B v := by
  apply Val.strong
  intro v ih t segs loc σ σ' j ρ st ht hf hr hB hsafe hs hat hm hl hfresh
  have hfresh' : ∀ ℓ ∈ st.locs, ∀ n ≥ 0, ¬ n :: loc <:+ ℓ := fun ℓ hℓ n _ h => hfresh ℓ hℓ (suffix_child h).1
  have facts := ser_facts env hfair H v t segs σ σ' j ht hf hs hm.closed
  unfold HasTy at ht
  split at ht
  · rename_i p k
    simp only [ser] at hs
    simp only [Readable] at hr
    split at hs
    · cases hs
    · cases hs
    · rename_i j' hj
      simp only [SRes.done.injEq, Option.some.injEq] at hs
      obtain ⟨rfl, rfl⟩ := hs
      refine ⟨ρ, st, fun exc target segs' => ?_, Step.refl hm hl⟩
      rw [deser_prim, leaf_back env hclk k p j' ht hr hj]
      rfl
  · rename_i vs t
    simp only [ser] at hs
    obtain ⟨js, hs', rfl⟩ := map_done hs
    simp only [Readable] at hr
    obtain ⟨-, ρ', st', hd, hst⟩ := back_items env hfair H root B vs (fun w hw => ih w (by have := mem_size hw; simp; omega)) _ 0 segs loc σ σ' js [] ρ st
      (HasTys_replicate env H vs t ht) hf (Readables_replicate env vs t hr) hB rfl
      (fun h => by have := hsafe h; simp only [PathSafe] at this; exact ⟨this.1, by omega, this.2.2⟩) hs' hat hm hl hfresh'
    refine ⟨ρ', st', fun exc target segs' => ?_, hst.compose⟩
    rw [deser_vec]
    simp only [(hd exc segs').2 t (by simp), DRes.map, rename]
  · rename_i vs n t
    obtain ⟨rfl, ht⟩ := ht
    simp only [ser, if_true] at hs
    obtain ⟨js, hs', rfl⟩ := map_done hs
    simp only [Readable] at hr
    obtain ⟨hlen, ρ', st', hd, hst⟩ := back_items env hfair H root B vs (fun w hw => ih w (by have := mem_size hw; simp; omega)) _ 0 segs loc σ σ' js [] ρ st
      (HasTys_replicate env H vs t ht) hf (Readables_replicate env vs t hr) hB rfl
      (fun h => by have := hsafe h; simp only [PathSafe] at this; exact ⟨this.1, by omega, this.2.2⟩) hs' hat hm hl hfresh'
    refine ⟨ρ', st', fun exc target segs' => ?_, hst.compose⟩
    rw [deser_arr]
    simp only [List.length_replicate] at hlen
    simp only [hlen, if_true, (hd exc segs').2 t (by simp), rename]
  · rename_i vs ts
    simp only [ser] at hs
    obtain ⟨js, hs', rfl⟩ := map_done hs
    simp only [Readable] at hr
    obtain ⟨hlen, ρ', st', hd, hst⟩ := back_items env hfair H root B vs (fun w hw => ih w (by have := mem_size hw; simp; omega)) _ 0 segs loc σ σ' js [] ρ st
      ht hf hr hB rfl
      (fun h => by have := hsafe h; simp only [PathSafe] at this; exact ⟨this.1, by omega, this.2.2⟩) hs' hat hm hl hfresh'
    refine ⟨ρ', st', fun exc target segs' => ?_, hst.compose⟩
    rw [deser_tuple]
    simp only [hlen, if_true, (hd exc segs').1, DRes.map, rename]
  · rename_i vs t
    simp only [ser] at hs
    obtain ⟨js, hs', rfl⟩ := map_done hs
    simp only [Readable] at hr
    obtain ⟨rfl, hd⟩ := back_set env hfair H root B t vs (fun w hw => ih w (by have := mem_size hw; simp; omega)) 0 segs loc σ σ' js ρ st
      ((AllTy_iff _ _ _ _).1 ht.1) hf hr.2 hr.1 hs' hm hl hfresh'
    refine ⟨ρ, st, fun exc target segs' => ?_, Step.refl hm hl⟩
    rw [deser_set]
    simp only [hd, DRes.map, rename, renameAll_noaddr ρ vs hr.1]
    rw [insertAll env.less vs [] ht.2 (by simp)]
    rfl
  · rename_i kvs o t
    have hp := iterate_perm env hfair o segs kvs ht.2.nodup
    have hk := (ValsTy_iff _ _ _ _).1 ht.1
    have hfin := (finiteVals_iff kvs).1 hf
    simp only [Readable] at hr
    have hr := (ReadableVals_iff _ _ _).1 hr
    simp only [ser, serVals_eq, iterate_map (g := fun p => ser env p.2 t)] at hs
    obtain ⟨js, hs', rfl⟩ := map_done hs
    have hadr : addrsVals (iterate env o segs kvs) = [] ↔ addrsVals kvs = [] := by
      simp only [List.eq_nil_iff_forall_not_mem, mem_addrsVals]
      constructor
      · rintro h a ⟨p, h1, h2⟩; exact h a ⟨p, hp.mem_iff.2 h1, h2⟩
      · rintro h a ⟨p, h1, h2⟩; exact h a ⟨p, hp.mem_iff.1 h1, h2⟩
    obtain ⟨ρ', st', hd, hst⟩ := back_vals env hfair H root B t (iterate env o segs kvs)
      (fun w hw => ih w.2 (by have := mem_size_kv (hp.mem_iff.1 hw); simp; omega)) 0 segs loc σ σ' js [] ρ st
      (fun w hw => hk w (hp.mem_iff.1 hw)) (fun w hw => hfin w (hp.mem_iff.1 hw)) (fun w hw => hr w (hp.mem_iff.1 hw))
      (fun a ha => hB a (by simp only [addrs]; rw [mem_addrsVals] at ha ⊢; obtain ⟨p, h1, h2⟩ := ha; exact ⟨p, hp.mem_iff.1 h1, h2⟩)) rfl
      ((hp.map _).nodup_iff.2 ht.2.nodup) (by simp)
      (fun h => by
        have := hsafe (fun h' => h (hadr.2 h'))
        simp only [PathSafe] at this
        refine ⟨this.1, ?_⟩
        rw [PathSafeVals_iff] at this ⊢
        exact fun p hm => this.2 p (hp.mem_iff.1 hm)) hs' (fun h => hat (fun h' => h (hadr.2 h'))) hm hl hfresh'
    refine ⟨ρ', st', fun exc target segs' => ?_, (hst.mono (ads' := addrsVals kvs) (fun _ h => h) (fun h => h) hadr.2).compose⟩
    rw [deser_map]
    simp only [hd, DRes.map, rename]
    rw [rebuild _ (renameVals ρ' kvs)]
    · rw [renameVals_eq, renameVals_eq]
      exact hp.map _
    · have := (keysAsc_iff kvs).1 ht.2
      rw [renameVals_eq]
      simpa [KeysAsc, List.pairwise_map] using this
    · have := ht.2.nodup
      rw [renameVals_eq]
      simpa [Function.comp_def] using this
  · rename_i kvs t
    simp [Readable] at hr
  · rename_i i w ts
    obtain ⟨t, hi, ht⟩ := ht
    simp only [Readable] at hr
    obtain ⟨t', hi', hr, hrej⟩ := hr
    rw [hi] at hi'
    cases hi'
    simp only [ser, hi] at hs
    obtain ⟨ρ', st', hd, hst⟩ := ih w (by simp; omega) t segs loc σ σ' j ρ st ht hf hr hB
      (fun h => by have := hsafe h; simpa only [PathSafe] using this) hs hat hm hl hfresh
    obtain ⟨-, -, -, -, pos, tr, hsh⟩ := ser_facts env hfair H w t segs σ σ' j ht hf hs hm.closed
    refine ⟨ρ', st', fun exc target segs' => ?_, hst.mono ?_ (fun h => h) (fun h => h)⟩
    · rw [deser_variant, tryAll_skip env root j (rename ρ' w) st' t ts i 0 loc segs' st hi (fun k t' hk h => hrej k t' hk h pos j tr hsh)
        (hd false (env.fresh t) segs')]
      simp only [Nat.zero_add, rename]
    · rintro ℓ ⟨h1, h2⟩
      refine ⟨h1, fun h => h2 ?_⟩
      simp only [Ty.topShared] at h
      exact topSharedAny_false h hi
  · rename_i vs c
    simp only [ser] at hs
    obtain ⟨js, hs', rfl⟩ := map_done hs
    simp only [Readable] at hr
    obtain ⟨ρ', st', hd, hst⟩ := back_members env hfair H root B vs (fun w hw => ih w (by simp; omega)) _ 0 segs loc σ σ' js [] ρ st ht hf hr hB rfl
      (hdist c) (by simp)
      (fun h => by have := hsafe h; simp only [PathSafe] at this; exact ⟨this.1, this.2, (this.1 c).1⟩) hs' hat hm hl hfresh'
    refine ⟨ρ', st', fun exc target segs' => ?_, hst.compose⟩
    rw [deser_cls]
    have := hd exc segs' target.members
    simp only [List.nil_append] at this
    simp only [this, DRes.map, rename]
  · rename_i w t
    simp only [Readable] at hr
    simp only [ser] at hs
    obtain ⟨ρ', st', hd, hst⟩ := ih w (by simp) t segs loc σ σ' j ρ st ht hf hr hB
      (fun h => by have := hsafe h; simpa only [PathSafe] using this) hs hat hm hl hfresh
    refine ⟨ρ', st', fun exc target segs' => ?_, hst.mono ?_ (fun h => h) (fun h => h)⟩
    · rw [deser_uptr, hd]
      rfl
    · rintro ℓ ⟨h1, h2⟩
      exact ⟨h1, fun h => h2 (by simpa only [Ty.topShared] using h)⟩
  · rename_i a w t
    simp only [Readable] at hr
    obtain ⟨htop, hkey, hr⟩ := hr
    simp only [ser] at hs
    have hne : addrs (.sptr a w) ≠ [] := by simp [addrs]
    cases hg : σ.get a with
    | some s =>
      simp only [hg, SRes.done.injEq, Option.some.injEq] at hs
      obtain ⟨rfl, rfl⟩ := hs
      have hmem : (a, s) ∈ σ := by
        obtain ⟨l1, l2, rfl, -⟩ := List.lookup_eq_some_iff.1 hg
        simp
      obtain ⟨h1, h2, t', w', q, h3, h4, h5⟩ := hl a s hmem (hB a (by simp [addrs]))
      rw [ht.1] at h3
      simp only [Option.some.injEq, Prod.mk.injEq] at h3
      obtain ⟨rfl, rfl⟩ := h3
      refine ⟨ρ, st, fun exc target segs' => ?_, Step.refl hm hl⟩
      rw [deser_sptr]
      have : refMember (.obj [(lit "$ref", .str (pathStr s))]) = some (.str (pathStr s)) := by
        simp [refMember, findMember]
      simp only [this, readRef, pointerTokens_pathStr env s h1 h2, h4, h5, if_true, rename]
    | none =>
      simp only [hg] at hs
      cases h1 : ser env w t segs σ with
      | ub => simp [h1] at hs
      | done σ1 r =>
        cases r with
        | none => simp [h1] at hs
        | some j' =>
          simp only [h1, SRes.done.injEq, Option.some.injEq] at hs
          obtain ⟨rfl, rfl⟩ := hs
          have hfresh_a : a ∉ addrs w := by
            intro hma
            obtain ⟨t', x, hx, hsz⟩ := addrs_size env H w t ht.2 a hma
            rw [ht.1] at hx
            cases hx
            omega
          obtain ⟨hc1, hads, hkeep, hsame, pos, tr, hsh⟩ := ser_facts env hfair H w t segs σ σ1 j' ht.2 hf h1 hm.closed
          have ha : a ∉ σ.keys := by
            intro hma
            obtain ⟨⟨b, s⟩, hm', rfl⟩ := List.mem_map.1 hma
            have := List.lookup_eq_none_iff.1 hg _ hm'
            simp at this
          have ha1 : a ∉ σ1.keys := by
            obtain ⟨new, j2, tr2, h1', -, h3'⟩ := serOk env hfair H w t segs [] σ ht.2 hf
            rw [h1'] at h1
            simp only [SRes.done.injEq, Option.some.injEq] at h1
            obtain ⟨rfl, -⟩ := h1
            simp only [STab.keys, List.map_append, List.mem_append, not_or]
            refine ⟨?_, ha⟩
            intro hma
            have hk := h3'.keys
            rw [STab.keys] at hk
            rw [hk] at hma
            exact hfresh_a (h3'.sub a (by simpa using hma))
          have hlk : σ1.lookup a = none := by
            rw [List.lookup_eq_none_iff]
            intro p hp
            simp only [bne_iff_ne, ne_eq]
            rintro rfl
            exact ha1 (List.mem_map.2 ⟨p, hp, rfl⟩)
          have hput : σ1.put a segs = (a, segs) :: σ1 := by simp only [STab.put, hlk]
          rw [hput] at facts ⊢
          obtain ⟨ρ1, st1, hd, hst⟩ := ih w (by simp; omega) t segs loc σ σ1 j' ρ { st with next := st.next + 1 } ht.2 hf hr (fun b hb => hB b (by simp [addrs, hb]))
            (fun _ => by have := hsafe hne; simpa only [PathSafe] using this) h1 (fun _ => hat hne)
            ⟨hm.inj, fun b hb => Nat.lt_succ_of_lt (hm.bound b hb), hm.closed⟩ hl hfresh
          let ρ' : Nat → Nat := fun x => if x = a then st.next else ρ1 x
          have hρa : ρ' a = st.next := by simp [ρ']
          have hρ : ∀ b, b ≠ a → ρ' b = ρ1 b := fun b hb => by simp [ρ', hb]
          have hρk : ∀ b ∈ σ1.keys, ρ' b = ρ1 b := fun b hb => hρ b (fun h => ha1 (h ▸ hb))
          have hval : rename ρ1 w = rename ρ' w := rename_congr _ _ _ (fun b hb => (hρk b (hads b hb)).symm)
          have hnot : loc ∉ st1.locs := by
            intro hloc
            rcases hst.locs loc hloc with h | h
            · exact hfresh loc h (List.suffix_refl _)
            · exact h.2 htop rfl
          have hlk1 : st1.refs.lookup loc = none := by
            rw [List.lookup_eq_none_iff]
            intro p hp
            simp only [bne_iff_ne, ne_eq]
            rintro rfl
            exact hnot (List.mem_map.2 ⟨p, hp, rfl⟩)
          have hput1 : st1.put loc (st.next, t, rename ρ1 w) = { st1 with refs := (loc, (st.next, t, rename ρ1 w)) :: st1.refs } := by
            simp only [DState.put, hlk1]
          refine ⟨ρ', st1.put loc (st.next, t, rename ρ1 w), fun exc target segs' => ?_, ?_⟩
          · rw [deser_sptr, noRef env w t pos j' tr htop hkey hsh]
            simp only [hd, rename, hρa, hval]
          · rw [hput1]
            refine ⟨?_, ⟨?_, ?_, facts.1⟩, ?_, ?_, ?_, ?_, ?_, ?_⟩
            · intro b hb
              rw [hρk b (hkeep b hb), hst.agree b hb]
            · have hlow : ∀ b ∈ σ1.keys, ρ1 b ≠ st.next := by
                intro b hb he
                by_cases hbσ : b ∈ σ.keys
                · have := hm.bound b hbσ
                  rw [hst.agree b hbσ] at he
                  omega
                · have := hst.newer b hb hbσ
                  simp only at this
                  omega
              intro b hb c hc he
              simp only [STab.keys, List.map_cons, List.mem_cons] at hb hc
              rcases hb with rfl | hb <;> rcases hc with rfl | hc
              · rfl
              · rw [hρa, hρk c hc] at he
                exact absurd he.symm (hlow c hc)
              · rw [hρa, hρk b hb] at he
                exact absurd he (hlow b hb)
              · rw [hρk b hb, hρk c hc] at he
                exact hst.mirror.inj b hb c hc he
            · intro b hb
              simp only [STab.keys, List.map_cons, List.mem_cons] at hb
              have hn := hst.next
              simp only at hn ⊢
              rcases hb with rfl | hb
              · rw [hρa]
                omega
              · rw [hρk b hb]
                exact hst.mirror.bound b hb
            · intro hsegs b s hb hBb
              rcases List.mem_cons.1 hb with hb | hb
              · simp only [Prod.mk.injEq] at hb
                obtain ⟨rfl, rfl⟩ := hb
                obtain ⟨h2, h3⟩ := hat hne
                refine ⟨hsegs, h2, t, w, loc.reverse, ht.1, ?_, ?_⟩
                · simpa [pointerGet] using h3 [] [] (by cases j' <;> rfl)
                · simp [DState.get, hρa, hval]
              · obtain ⟨h2, h3, t', w', q, h4, h5, h6⟩ := hst.linked hsegs b s hb hBb
                refine ⟨h2, h3, t', w', q, h4, h5, ?_⟩
                have hbk : b ∈ σ1.keys := List.mem_map.2 ⟨_, hb, rfl⟩
                have hwq : rename ρ1 w' = rename ρ' w' :=
                  rename_congr _ _ _ (fun c hc => (hρk c (hc1 b hbk t' w' h4 c hc)).symm)
                have hql : (q.reverse == loc) = false := by
                  simp only [beq_eq_false_iff_ne, ne_eq]
                  intro he
                  rw [he, DState.get, hlk1] at h6
                  cases h6
                rw [hρk b hbk, ← hwq]
                simp only [DState.get, List.lookup_cons, hql] at h6 ⊢
                exact h6
            · have hn := hst.next
              simp only at hn ⊢
              omega
            · intro b hb hbσ
              simp only [STab.keys, List.map_cons, List.mem_cons] at hb
              rcases hb with rfl | hb
              · rw [hρa]
                exact Nat.le_refl _
              · rw [hρk b hb]
                have := hst.newer b hb hbσ
                simp only at this
                omega
            · intro ℓ hℓ
              simp only [DState.locs, List.map_cons, List.mem_cons] at hℓ
              rcases hℓ with rfl | hℓ
              · exact .inr ⟨List.suffix_refl _, by simp [Ty.topShared]⟩
              · rcases hst.locs ℓ hℓ with h | h
                · exact .inl h
                · exact .inr ⟨h.1, by simp [Ty.topShared]⟩
            · intro h
              exact absurd h hne
            · intro b hb
              simp only [STab.keys, List.map_cons, List.mem_cons]
              exact .inr (hkeep b hb)
  · exact ht.elim

end Verif.Core
