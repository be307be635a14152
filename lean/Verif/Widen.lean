import Mathlib.Data.List.Nodup
import Verif.ReadTyped

/-!
# Types that have been replaced by other types

`Widens R t t'`: a program in which a variable had the type `t` has been changed, now it has the type `t'`, and old
documents are meant to stay readable. Both types are types of the same environment: a class `c` that has been changed is
there in its old and in its new form `c'`, `R c c'` (see `Replaces`). `Carried` says what becomes of the data.
-/

namespace Verif.Core
open Verif.Numeric Verif.EnumConv

/-- A type without components is replaced by another one. -/
inductive LeafWidens : Prim → Prim → Prop
  | same (p : Prim) : LeafWidens p p
  /-- an integer type with a larger range -/
  | int (a b : IntTy) : b.min ≤ a.min → a.max ≤ b.max → LeafWidens (.int a) (.int b)
  | enumInt (a b : IntTy) : b.min ≤ a.min → a.max ≤ b.max → LeafWidens (.enumInt a) (.enumInt b)
  /-- a plain number becomes an enumeration, or the other way round -/
  | toEnum (a : IntTy) : LeafWidens (.int a) (.enumInt a)
  | ofEnum (a : IntTy) : LeafWidens (.enumInt a) (.int a)
  /-- a floating-point type that has all values of the integer type -/
  | real (a : IntTy) (f : FltTy) : a.digits < f.digits → LeafWidens (.int a) (.flt f)
  | double : LeafWidens (.flt .float) (.flt .double)
  /-- enumerators are added at the end -/
  | names (table more : Table) : LeafWidens (.enumStr table) (.enumStr (table ++ more))
  /-- the text is kept as it is -/
  | bytes : LeafWidens .bytes .str
  | time : LeafWidens .time .str
  | date : LeafWidens .date .str
  | enumText (table : Table) : LeafWidens (.enumStr table) .str

/-- What becomes of a value without components. `loose`: numbers for `float` in the document may have more digits. -/
inductive LeafCarried (env : Env) (loose : Bool) : Prim → Prim → PVal → PVal → Prop
  | same (p : Prim) (pv : PVal) : LeafCarried env loose p p pv pv
  | int (a b : IntTy) (v : Int) : LeafCarried env loose (.int a) (.int b) (.int v) (.int v)
  | enumInt (a b : IntTy) (v : Int) : LeafCarried env loose (.enumInt a) (.enumInt b) (.int v) (.int v)
  | toEnum (a : IntTy) (v : Int) : LeafCarried env loose (.int a) (.enumInt a) (.int v) (.int v)
  | ofEnum (a : IntTy) (v : Int) : LeafCarried env loose (.enumInt a) (.int a) (.int v) (.int v)
  /-- the number is exact -/
  | real (a : IntTy) (f : FltTy) (v : Int) : LeafCarried env loose (.int a) (.flt f) (.int v) (.flt (Flt.ofInt v))
  /-- the nearest numbers of both types to the same number, or the same number -/
  | double (d : Flt) : (loose = false → d.round .float = d.round .double) → LeafCarried env loose (.flt .float) (.flt .double) (.flt (d.round .float)) (.flt (d.round .double))
  | names (table more : Table) (v : Int) : LeafCarried env loose (.enumStr table) (.enumStr (table ++ more)) (.int v) (.int v)
  | bytes (s bs : Str) : Base64.decode s = some bs → LeafCarried env loose .bytes .str (.bytes bs) (.str s)
  | time (s : Str) (t : Int) : DateTime.parseDatetime env.clk s = .ok t → LeafCarried env loose .time .str (.time t) (.str s)
  | date (s : Str) (y : Int) (m d : Nat) : DateTime.readDate env.clk s = .ok y m d → LeafCarried env loose .date .str (.date y m d) (.str s)
  | enumText (table : Table) (s : Str) (v : Int) : enumValue table s = some v → LeafCarried env loose (.enumStr table) .str (.int v) (.str s)

/-- A type is replaced by another one; `R` tells which classes are replaced by which. -/
inductive Widens (R : Nat → Nat → Prop) : Ty → Ty → Prop
  | prim (p p' : Prim) : LeafWidens p p' → Widens R (.prim p) (.prim p')
  | vec (t t' : Ty) : Widens R t t' → Widens R (.vec t) (.vec t')
  | arr (n : Nat) (t t' : Ty) : Widens R t t' → Widens R (.arr n t) (.arr n t')
  /-- `std::array` becomes `std::vector` -/
  | arrVec (n : Nat) (t t' : Ty) : Widens R t t' → Widens R (.arr n t) (.vec t')
  /-- `std::set` becomes `std::vector` -/
  | setVec (t t' : Ty) : Widens R t t' → Widens R (.set t) (.vec t')
  | set (t : Ty) : Widens R (.set t) (.set t)
  /-- `std::map` and `std::unordered_map` -/
  | map (o o' : Bool) (t t' : Ty) : Widens R t t' → Widens R (.map o t) (.map o' t')
  | dict (t : Ty) : Widens R (.dict t) (.dict t)
  | tuple (ts ts' : List Ty) : ts.length = ts'.length → (∀ (i : Nat) t t', ts[i]? = some t → ts'[i]? = some t' → Widens R t t') →
      Widens R (.tuple ts) (.tuple ts')
  /-- `std::pair` and `std::tuple` become `std::vector` -/
  | tupleVec (ts : List Ty) (t' : Ty) : (∀ t, t ∈ ts → Widens R t t') → Widens R (.tuple ts) (.vec t')
  /-- alternatives are added at the end, and the last one is replaced; those before it stay as they are -/
  | variant (pre : List Ty) (t t' : Ty) (more : List Ty) : Widens R t t' → Widens R (.variant (pre ++ [t])) (.variant (pre ++ t' :: more))
  /-- a variant takes the place of its first alternative -/
  | toVariant (t t' : Ty) (more : List Ty) : Widens R t t' → Widens R t (.variant (t' :: more))
  | cls (c c' : Nat) : R c c' → Widens R (.cls c) (.cls c')
  | ptr (t t' : Ty) : Widens R t t' → Widens R (.uptr t) (.uptr t')
  /-- an object becomes a pointer to an object, or the other way round -/
  | toPtr (t t' : Ty) : Widens R t t' → Widens R t (.uptr t')
  | ofPtr (t t' : Ty) : Widens R t t' → Widens R (.uptr t) t'

/-- A member variable in its old and its new form: it is not required if it was not, and its type is replaced. -/
structure MemberWidens (R : Nat → Nat → Prop) (m m' : Member) : Prop where
  name : m.name = m'.name
  kind : m'.kind = .required → m.kind = .required
  ty : Widens R m.ty m'.ty

/-- Classes and their new forms: every member of the new form was there in the old form, in any order. Members may have
been removed. -/
def Replaces (env : Env) (R : Nat → Nat → Prop) : Prop :=
  ∀ c c', R c c' → ∀ m' ∈ env.members c', ∃ m ∈ env.members c, MemberWidens R m m'

/-- How a member variable holds a value that was in the document. -/
def Member.hold (m : Member) (w : Val) : Val := if m.kind = .optional then .present w else w

mutual
/-- What becomes of the data. `loose`: members of kind `default` may have been missing in the document, then nothing is said
about them. -/
inductive Carried (env : Env) (loose : Bool) : Ty → Ty → Val → Val → Prop
  | prim (p p' : Prim) (pv pv' : PVal) : LeafCarried env loose p p' pv pv' → Carried env loose (.prim p) (.prim p') (.prim pv) (.prim pv')
  | vec (t t' : Ty) (vs vs' : List Val) : vs.length = vs'.length →
      (∀ (i : Nat) v v', vs[i]? = some v → vs'[i]? = some v' → Carried env loose t t' v v') → Carried env loose (.vec t) (.vec t') (.seq vs) (.seq vs')
  | arr (n : Nat) (t t' : Ty) (vs vs' : List Val) : vs.length = n → vs'.length = n →
      (∀ (i : Nat) v v', vs[i]? = some v → vs'[i]? = some v' → Carried env loose t t' v v') → Carried env loose (.arr n t) (.arr n t') (.tup vs) (.tup vs')
  | arrVec (n : Nat) (t t' : Ty) (vs vs' : List Val) : vs.length = n → vs'.length = n →
      (∀ (i : Nat) v v', vs[i]? = some v → vs'[i]? = some v' → Carried env loose t t' v v') → Carried env loose (.arr n t) (.vec t') (.tup vs) (.seq vs')
  /-- the vector has what was inserted into the set -/
  | setVec (t t' : Ty) (vs vs' : List Val) : vs.length = vs'.length →
      (∀ (i : Nat) v v', vs[i]? = some v → vs'[i]? = some v' → Carried env loose t t' v v') →
      Carried env loose (.set t) (.vec t') (.set (setOf env.less vs)) (.seq vs')
  | set (t : Ty) (v : Val) : Carried env loose (.set t) (.set t) v v
  | map (o o' : Bool) (t t' : Ty) (kvs kvs' : List (Str × Val)) : kvs.map (·.1) = kvs'.map (·.1) →
      (∀ (i : Nat) p p', kvs[i]? = some p → kvs'[i]? = some p' → Carried env loose t t' p.2 p'.2) →
      Carried env loose (.map o t) (.map o' t') (.map kvs) (.map kvs')
  | dict (t : Ty) (v : Val) : Carried env loose (.dict t) (.dict t) v v
  | tuple (ts ts' : List Ty) (vs vs' : List Val) : vs.length = ts.length → vs'.length = ts'.length → ts.length = ts'.length →
      (∀ (i : Nat) t t' v v', ts[i]? = some t → ts'[i]? = some t' → vs[i]? = some v → vs'[i]? = some v' → Carried env loose t t' v v') →
      Carried env loose (.tuple ts) (.tuple ts') (.tup vs) (.tup vs')
  | tupleVec (ts : List Ty) (t' : Ty) (vs vs' : List Val) : vs.length = ts.length → vs'.length = ts.length →
      (∀ (i : Nat) t v v', ts[i]? = some t → vs[i]? = some v → vs'[i]? = some v' → Carried env loose t t' v v') →
      Carried env loose (.tuple ts) (.vec t') (.tup vs) (.seq vs')
  | variant (pre : List Ty) (t t' : Ty) (more : List Ty) (i : Nat) (v : Val) : i < pre.length →
      Carried env loose (.variant (pre ++ [t])) (.variant (pre ++ t' :: more)) (.alt i v) (.alt i v)
  | variantLast (pre : List Ty) (t t' : Ty) (more : List Ty) (v v' : Val) : Carried env loose t t' v v' →
      Carried env loose (.variant (pre ++ [t])) (.variant (pre ++ t' :: more)) (.alt pre.length v) (.alt pre.length v')
  | toVariant (t t' : Ty) (more : List Ty) (v v' : Val) : Carried env loose t t' v v' → Carried env loose t (.variant (t' :: more)) v (.alt 0 v')
  /-- a member holds what the member of the same name held; an optional member that was absent is absent -/
  | cls (c c' : Nat) (vs vs' : List Val) : vs.length = (env.members c).length → vs'.length = (env.members c').length →
      (∀ (i i' : Nat) m m' s s', (env.members c)[i]? = some m → (env.members c')[i']? = some m' → m.name = m'.name → vs[i]? = some s →
        vs'[i']? = some s' → CarriedSlot env loose m m' s s') →
      Carried env loose (.cls c) (.cls c') (.obj vs) (.obj vs')
  | ptr (t t' : Ty) (v v' : Val) : Carried env loose t t' v v' → Carried env loose (.uptr t) (.uptr t') (.uptr v) (.uptr v')
  | toPtr (t t' : Ty) (v v' : Val) : Carried env loose t t' v v' → Carried env loose t (.uptr t') v (.uptr v')
  | ofPtr (t t' : Ty) (v v' : Val) : Carried env loose t t' v v' → Carried env loose (.uptr t) t' (.uptr v) v'

/-- What becomes of a member variable. -/
inductive CarriedSlot (env : Env) (loose : Bool) : Member → Member → Val → Val → Prop
  | held (m m' : Member) (w w' : Val) : Carried env loose m.ty m'.ty w w' → CarriedSlot env loose m m' (m.hold w) (m'.hold w')
  /-- the member was absent; if the new one is not optional, then it keeps its previous contents -/
  | absent (m m' : Member) (s' : Val) : m.kind = .optional → m'.kind ≠ .required → (m'.kind = .optional → s' = .absent) → CarriedSlot env loose m m' .absent s'
  | default (m m' : Member) (s s' : Val) : loose = true → m.kind = .default → m'.kind ≠ .required → (m'.kind = .optional → s' = .absent) →
      CarriedSlot env loose m m' s s'
end

/-- A component of a document that is read, with its type: like `Child`, but of a variant only the alternative that the
document denotes. -/
inductive Used (env : Env) : Ty → Json → Ty → Json → Prop
  | child (t : Ty) (j : Json) (t' : Ty) (j' : Json) : (∀ ts, t ≠ .variant ts) → Child env t j t' j' → Used env t j t' j'
  | variant (ts : List Ty) (j : Json) (i : Nat) (t : Ty) (v : Val) : ts[i]? = some t → (∀ k t', k < i → ts[k]? = some t' → Fails env t' j) →
      Decodes env t j (env.fresh t) v → Used env (.variant ts) j t j

/-- A node of the document that is read, with its type. -/
inductive Taken (env : Env) : Ty → Json → Ty → Json → Prop
  | self (t : Ty) (j : Json) : Taken env t j t j
  | step (t : Ty) (j : Json) (t1 : Ty) (j1 : Json) (t2 : Ty) (j2 : Json) : Used env t j t1 j1 → Taken env t1 j1 t2 j2 → Taken env t j t2 j2

/-- Documents like those that the library writes: every object has the default members of its class, and the numbers that are read as
`float` are numbers of that type. -/
structure Entire (env : Env) (t : Ty) (j : Json) : Prop where
  members : ∀ c fields, Taken env t j (.cls c) (.obj fields) → ∀ m ∈ env.members c, m.kind = .default → findMember m.name fields ≠ none
  floats : ∀ x, Taken env t j (.prim (.flt .float)) (.num x) → x.getDouble.round .float = x.getDouble.round .double

theorem Entire.used {env : Env} {t t' : Ty} {j j' : Json} (h : Entire env t j) (hc : Used env t j t' j') : Entire env t' j' :=
  ⟨fun c fields hp => h.members c fields (.step _ _ _ _ _ _ hc hp), fun x hp => h.floats x (.step _ _ _ _ _ _ hc hp)⟩

/-! ## Leaves -/

theorem enumValue_prefix (table more : Table) (s : Str) (v : Int) (h : enumValue table s = some v) : enumValue (table ++ more) s = some v := by
  induction table with
  | nil => cases h
  | cons p table ih =>
    rw [List.cons_append, enumValue]
    rw [enumValue] at h
    split at h
    · rename_i he
      rw [if_pos he]
      exact h
    · rename_i he
      rw [if_neg he]
      exact ih h

theorem natAbs_lt {a : IntTy} {v : Int} {k : Nat} (h : a.InRange v) (hk : a.digits < k) : v.natAbs < 2 ^ k := by
  have h1 : (2 : Nat) ^ a.digits * 2 ≤ 2 ^ k := by
    rw [← Nat.pow_succ]
    exact Nat.pow_le_pow_right (by decide) hk
  have h2 : 0 < 2 ^ a.digits := Nat.pow_pos (by decide)
  obtain ⟨hl, hr⟩ := h
  unfold IntTy.min at hl
  unfold IntTy.max at hr
  unfold IntTy.digits at h1 h2
  cases hs : a.signed <;> simp only [hs, if_true, Bool.false_eq_true, if_false] at hl hr h1 h2
  all_goals
    generalize (2 : Nat) ^ k = K at h1 ⊢
    first
    | (generalize (2 : Nat) ^ (a.width.bits - 1) = M at hl hr h1 h2; omega)

theorem leaf_widens {env : Env} {loose : Bool} {p p' : Prim} (h : LeafWidens p p') {j : Json} {pv : PVal}
    (hl : loose = false → Entire env (.prim p) j) (hr : LeafReads env p j pv) : ∃ pv', LeafReads env p' j pv' ∧ LeafCarried env loose p p' pv pv' := by
  cases h with
  | same => exact ⟨pv, hr, .same _ _⟩
  | int a b h1 h2 => cases hr with | int _ v hv => exact ⟨_, .int _ v ⟨Int.le_trans h1 hv.1, Int.le_trans hv.2 h2⟩, .int _ _ _⟩
  | enumInt a b h1 h2 => cases hr with | enumInt _ v hv => exact ⟨_, .enumInt _ v ⟨Int.le_trans h1 hv.1, Int.le_trans hv.2 h2⟩, .enumInt _ _ _⟩
  | toEnum a => cases hr with | int _ v hv => exact ⟨_, .enumInt _ v hv, .toEnum _ _⟩
  | ofEnum a => cases hr with | enumInt _ v hv => exact ⟨_, .int _ v hv, .ofEnum _ _⟩
  | real a f h1 =>
    cases hr with
    | int _ v hv =>
      have he : (JsonNum.int v).getDouble.round f = Flt.ofInt v := by
        have hf := natAbs_lt hv h1
        have hd : v.natAbs < 2 ^ FltTy.double.digits := natAbs_lt hv (Nat.lt_of_lt_of_le h1 (by cases f <;> decide))
        rw [JsonNum.getDouble, castInt_exact .double v hd]
        exact round_fits _ _ (ofInt_fits f v hf)
      exact ⟨_, .flt f _, he ▸ .real a f v⟩
  | double => cases hr with | flt _ n => exact ⟨_, .flt _ n, .double _ fun h => (hl h).floats n (.self _ _)⟩
  | names table more => cases hr with | enumStr _ s v hv => exact ⟨_, .enumStr _ s v (enumValue_prefix _ _ _ _ hv), .names _ _ _⟩
  | bytes => cases hr with | bytes s bs hv => exact ⟨_, .str s, .bytes s bs hv⟩
  | time => cases hr with | time s t hv => exact ⟨_, .str s, .time s t hv⟩
  | date => cases hr with | date s y m d hv => exact ⟨_, .str s, .date s y m d hv⟩
  | enumText table => cases hr with | enumStr _ s v hv => exact ⟨_, .str s, .enumText _ s v hv⟩

/-! ## Lists -/

/-- Two lists of the same length, with elements that are related one by one. -/
def Beside {α β : Type} (P : α → β → Prop) (l : List α) (l' : List β) : Prop :=
  l.length = l'.length ∧ ∀ (i : Nat) a b, l[i]? = some a → l'[i]? = some b → P a b

theorem Beside.nil {α β : Type} (P : α → β → Prop) : Beside P [] [] := ⟨rfl, fun i a b h => by simp at h⟩

theorem Beside.cons {α β : Type} {P : α → β → Prop} {a : α} {b : β} {l : List α} {l' : List β} (h : P a b) (ht : Beside P l l') :
    Beside P (a :: l) (b :: l') := by
  refine ⟨by rw [List.length_cons, List.length_cons, ht.1], fun i x y hx hy => ?_⟩
  cases i with
  | zero =>
    rw [List.getElem?_cons_zero] at hx hy
    cases hx
    cases hy
    exact h
  | succ i =>
    rw [List.getElem?_cons_succ] at hx hy
    exact ht.2 i x y hx hy

theorem Beside.uncons {α β : Type} {P : α → β → Prop} {a : α} {l : List α} {r : List β} (h : Beside P (a :: l) r) :
    ∃ b l', r = b :: l' ∧ P a b ∧ Beside P l l' := by
  cases r with
  | nil => cases h.1
  | cons b l' =>
    refine ⟨b, l', rfl, h.2 0 a b rfl rfl, by simpa using h.1, fun i x y hx hy => h.2 (i + 1) x y ?_ ?_⟩
    · rwa [List.getElem?_cons_succ]
    · rwa [List.getElem?_cons_succ]

theorem Beside.nil_inv {α β : Type} {P : α → β → Prop} {r : List β} (h : Beside P [] r) : r = [] :=
  List.eq_nil_of_length_eq_zero h.1.symm

/-- Entries of maps with the same keys. -/
def SameKey {α β : Type} (P : α → β → Prop) (p : Str × α) (q : Str × β) : Prop := p.1 = q.1 ∧ P p.2 q.2

theorem beside_assign {α β : Type} {P : α → β → Prop} (k : Str) {a : α} {b : β} (h : P a b) {l : List (Str × α)} {l' : List (Str × β)}
    (hl : Beside (SameKey P) l l') : Beside (SameKey P) (mapAssign k a l) (mapAssign k b l') := by
  induction l generalizing l' with
  | nil =>
    rw [hl.nil_inv]
    exact .cons ⟨rfl, h⟩ (.nil _)
  | cons p l ih =>
    obtain ⟨q, l', rfl, hpq, hl2⟩ := hl.uncons
    obtain ⟨k1, a1⟩ := p
    obtain ⟨k2, b1⟩ := q
    obtain ⟨rfl, hab⟩ : k1 = k2 ∧ P a1 b1 := hpq
    rw [mapAssign, mapAssign]
    split
    · exact .cons ⟨rfl, h⟩ hl2
    · split
      · exact .cons ⟨rfl, hab⟩ (ih hl2)
      · exact .cons ⟨rfl, h⟩ (.cons ⟨rfl, hab⟩ hl2)

theorem beside_mapOf {α β : Type} {P : α → β → Prop} {l : List (Str × α)} {l' : List (Str × β)} (hl : Beside (SameKey P) l l') :
    Beside (SameKey P) (mapOf l) (mapOf l') := by
  have : ∀ (l : List (Str × α)) (l' : List (Str × β)) s s', Beside (SameKey P) l l' → Beside (SameKey P) s s' →
      Beside (SameKey P) (l.foldl (fun s p => mapAssign p.1 p.2 s) s) (l'.foldl (fun s p => mapAssign p.1 p.2 s) s') := by
    intro l
    induction l with
    | nil =>
      intro l' s s' h hs
      rw [h.nil_inv]
      exact hs
    | cons p l ih =>
      intro l' s s' h hs
      obtain ⟨q, l', rfl, ⟨hk, hp⟩, h⟩ := h.uncons
      refine ih l' _ _ h ?_
      show Beside (SameKey P) (mapAssign p.1 p.2 s) (mapAssign q.1 q.2 s')
      rw [hk]
      exact beside_assign _ hp hs
  exact this l l' [] [] hl (.nil _)

theorem beside_keys {α β : Type} {P : α → β → Prop} {l : List (Str × α)} {l' : List (Str × β)} (hl : Beside (SameKey P) l l') :
    l.map (·.1) = l'.map (·.1) := by
  induction l generalizing l' with
  | nil => rw [hl.nil_inv]; rfl
  | cons p l ih =>
    obtain ⟨q, l', rfl, hpq, hl⟩ := hl.uncons
    rw [List.map_cons, List.map_cons, hpq.1, ih hl]

/-! ## Documents -/

theorem decodesAll_widen {env : Env} {C : Val → Val → Prop} {t t' : Ty} {js : List Json} {vs : List Val} (h : DecodesAll env t js vs)
    (ih : ∀ j ∈ js, ∀ v, Decodes env t j (env.fresh t) v → ∃ v', Decodes env t' j (env.fresh t') v' ∧ C v v') :
    ∃ vs', DecodesAll env t' js vs' ∧ Beside C vs vs' := by
  induction js generalizing vs with
  | nil =>
    cases h
    exact ⟨[], .nil _, .nil _⟩
  | cons j js hi =>
    cases h with
    | cons _ _ _ v vs h1 h2 =>
      obtain ⟨v', h3, h4⟩ := ih j (by simp) v h1
      obtain ⟨vs', h5, h6⟩ := hi h2 fun j hj => ih j (by simp [hj])
      exact ⟨v' :: vs', .cons _ _ _ _ _ h3 h5, .cons h4 h6⟩

theorem decodesEntries_widen {env : Env} {C : Val → Val → Prop} {t t' : Ty} {ms : List (Str × Json)} {kvs : List (Str × Val)}
    (h : DecodesEntries env t ms kvs) (ih : ∀ p ∈ ms, ∀ v, Decodes env t p.2 (env.fresh t) v → ∃ v', Decodes env t' p.2 (env.fresh t') v' ∧ C v v') :
    ∃ kvs', DecodesEntries env t' ms kvs' ∧ Beside (SameKey C) kvs kvs' := by
  induction ms generalizing kvs with
  | nil =>
    cases h
    exact ⟨[], .nil _, .nil _⟩
  | cons p ms hi =>
    cases h with
    | cons _ k j _ v kvs h1 h2 =>
      obtain ⟨v', h3, h4⟩ := ih (k, j) (by simp) v h1
      obtain ⟨kvs', h5, h6⟩ := hi h2 fun j hj => ih j (by simp [hj])
      exact ⟨(cstr k, v') :: kvs', .cons _ _ _ _ _ _ h3 h5, .cons ⟨rfl, h4⟩ h6⟩

theorem decodesEach_length {env : Env} {ts : List Ty} {js : List Json} {targets vs : List Val} (h : DecodesEach env ts js targets vs) :
    vs.length = ts.length ∧ js.length = ts.length := by
  induction ts generalizing js targets vs with
  | nil => cases h; exact ⟨rfl, rfl⟩
  | cons t ts ih =>
    cases h with
    | cons _ _ _ _ _ _ _ _ h => simpa using ih h

theorem decodesEach_widen {env : Env} {C : Ty → Ty → Val → Val → Prop} {ts ts' : List Ty} {js : List Json} {targets vs : List Val} (targets' : List Val)
    (h : DecodesEach env ts js targets vs) (hl : ts.length = ts'.length)
    (ih : ∀ (i : Nat) t t' j, ts[i]? = some t → ts'[i]? = some t' → js[i]? = some j → ∀ tg tg' v, Decodes env t j tg v → ∃ v', Decodes env t' j tg' v' ∧ C t t' v v') :
    ∃ vs', DecodesEach env ts' js targets' vs' ∧
      ∀ (i : Nat) t t' v v', ts[i]? = some t → ts'[i]? = some t' → vs[i]? = some v → vs'[i]? = some v' → C t t' v v' := by
  induction ts generalizing ts' js targets vs targets' with
  | nil =>
    cases h
    rw [List.eq_nil_of_length_eq_zero hl.symm]
    exact ⟨[], .nil _, fun i t t' v v' h => by simp at h⟩
  | cons t ts hi =>
    cases ts' with
    | nil => cases hl
    | cons t' ts' =>
      cases h with
      | cons _ _ j js _ v vs h1 h2 =>
        obtain ⟨v', h3, h4⟩ := ih 0 t t' j rfl rfl rfl _ (targets'.headD (env.fresh t')) v h1
        obtain ⟨vs', h5, h6⟩ := hi targets'.tail h2 (by simpa using hl) fun i t t' j ht ht' hj =>
          ih (i + 1) t t' j (by rwa [List.getElem?_cons_succ]) (by rwa [List.getElem?_cons_succ]) (by rwa [List.getElem?_cons_succ])
        refine ⟨v' :: vs', .cons _ _ _ _ _ _ _ h3 h5, fun i a a' b b' ha ha' hb hb' => ?_⟩
        cases i with
        | zero =>
          rw [List.getElem?_cons_zero] at ha ha' hb hb'
          cases ha
          cases ha'
          cases hb
          cases hb'
          exact h4
        | succ i =>
          rw [List.getElem?_cons_succ] at ha ha' hb hb'
          exact h6 i a a' b b' ha ha' hb hb'

theorem decodesEach_all {env : Env} {C : Ty → Val → Val → Prop} {t' : Ty} {ts : List Ty} {js : List Json} {targets vs : List Val}
    (h : DecodesEach env ts js targets vs)
    (ih : ∀ (i : Nat) t j, ts[i]? = some t → js[i]? = some j → ∀ tg v, Decodes env t j tg v → ∃ v', Decodes env t' j (env.fresh t') v' ∧ C t v v') :
    ∃ vs', DecodesAll env t' js vs' ∧ vs'.length = ts.length ∧
      ∀ (i : Nat) t v v', ts[i]? = some t → vs[i]? = some v → vs'[i]? = some v' → C t v v' := by
  induction ts generalizing js targets vs with
  | nil =>
    cases h
    exact ⟨[], .nil _, rfl, fun i t v v' h => by simp at h⟩
  | cons t ts hi =>
    cases h with
    | cons _ _ j js _ v vs h1 h2 =>
      obtain ⟨v', h3, h4⟩ := ih 0 t j rfl rfl _ v h1
      obtain ⟨vs', h5, hl, h6⟩ := hi h2 fun i t j ht hj => ih (i + 1) t j (by rwa [List.getElem?_cons_succ]) (by rwa [List.getElem?_cons_succ])
      refine ⟨v' :: vs', .cons _ _ _ _ _ h3 h5, by simp [hl], fun i a b b' ha hb hb' => ?_⟩
      cases i with
      | zero =>
        rw [List.getElem?_cons_zero] at ha hb hb'
        cases ha
        cases hb
        cases hb'
        exact h4
      | succ i =>
        rw [List.getElem?_cons_succ] at ha hb hb'
        exact h6 i a b b' ha hb hb'

/-- What a member variable holds after reading. -/
inductive SlotReads (env : Env) (fields : List (Str × Json)) (m : Member) : Val → Prop
  | held (i : Nat) (j : Json) (tg w : Val) : findMember m.name fields = some (i, j) → Decodes env m.ty j tg w → SlotReads env fields m (m.hold w)
  | absent : findMember m.name fields = none → m.kind = .optional → SlotReads env fields m .absent
  | keep (s : Val) : findMember m.name fields = none → m.kind = .default → SlotReads env fields m s

theorem decodesMembers_slots {env : Env} {fields : List (Str × Json)} {ms : List Member} {targets vs : List Val} (h : DecodesMembers env fields ms targets vs) :
    vs.length = ms.length ∧ ∀ (i : Nat) m s, ms[i]? = some m → vs[i]? = some s → SlotReads env fields m s := by
  induction ms generalizing targets vs with
  | nil =>
    cases h
    exact ⟨rfl, fun i m s h => by simp at h⟩
  | cons m ms ih =>
    have go : ∀ v vs' tg, DecodesMembers env fields ms tg vs' → SlotReads env fields m v →
        (v :: vs').length = (m :: ms).length ∧ ∀ (i : Nat) m' s, (m :: ms)[i]? = some m' → (v :: vs')[i]? = some s → SlotReads env fields m' s := by
      intro v vs' tg h hv
      refine ⟨by simp [(ih h).1], fun i m' s hm hs => ?_⟩
      cases i with
      | zero =>
        rw [List.getElem?_cons_zero] at hm hs
        cases hm
        cases hs
        exact hv
      | succ i =>
        rw [List.getElem?_cons_succ] at hm hs
        exact (ih h).2 i m' s hm hs
    cases h with
    | present _ _ _ _ i j v vs hf hk hd h =>
      refine go _ _ _ h ?_
      have := SlotReads.held i j _ v hf hd
      rwa [Member.hold, if_neg hk] at this
    | some _ _ _ _ i j v vs hf hk hd h =>
      refine go _ _ _ h ?_
      have := SlotReads.held i j _ v hf hd
      rwa [Member.hold, if_pos hk] at this
    | none _ _ _ _ _ hf hk h => exact go _ _ _ h (.absent hf hk)
    | keep _ _ _ _ _ hf hk h => exact go _ _ _ h (.keep _ hf hk)

/-- Members are read one by one; a relation to each of them is a relation to all of them. -/
theorem members_decode {env : Env} {fields : List (Str × Json)} {D : Member → Val → Prop} (ms : List Member) (targets : List Val)
    (h1 : ∀ m ∈ ms, ∀ i j, findMember m.name fields = some (i, j) → ∀ tg, ∃ w, Decodes env m.ty j tg w ∧ D m (m.hold w))
    (h2 : ∀ m ∈ ms, findMember m.name fields = none → m.kind ≠ .required ∧ ∀ s, (m.kind = .optional → s = .absent) → D m s) :
    ∃ vs, DecodesMembers env fields ms targets vs ∧ vs.length = ms.length ∧ ∀ (i : Nat) m s, ms[i]? = some m → vs[i]? = some s → D m s := by
  induction ms generalizing targets with
  | nil => exact ⟨[], .nil _ _, rfl, fun i m s h => by simp at h⟩
  | cons m ms ih =>
    obtain ⟨vs, h3, hl, h4⟩ := ih targets.tail (fun m hm => h1 m (by simp [hm])) (fun m hm => h2 m (by simp [hm]))
    have go : ∀ s, DecodesMembers env fields (m :: ms) targets (s :: vs) → D m s →
        ∃ vs, DecodesMembers env fields (m :: ms) targets vs ∧ vs.length = (m :: ms).length ∧
          ∀ (i : Nat) m' s, (m :: ms)[i]? = some m' → vs[i]? = some s → D m' s := by
      intro s hd hs
      refine ⟨s :: vs, hd, by simp [hl], fun i m' s' hm hs' => ?_⟩
      cases i with
      | zero =>
        rw [List.getElem?_cons_zero] at hm hs'
        cases hm
        cases hs'
        exact hs
      | succ i =>
        rw [List.getElem?_cons_succ] at hm hs'
        exact h4 i m' s' hm hs'
    cases hf : findMember m.name fields with
    | some p =>
      obtain ⟨i, j⟩ := p
      by_cases hk : m.kind = .optional
      · obtain ⟨w, hd, hw⟩ := h1 m (by simp) i j hf (env.fresh m.ty)
        rw [Member.hold, if_pos hk] at hw
        exact go _ (.some _ _ _ _ i j w vs hf hk hd h3) hw
      · obtain ⟨w, hd, hw⟩ := h1 m (by simp) i j hf (targets.headD (env.fresh m.ty))
        rw [Member.hold, if_neg hk] at hw
        exact go _ (.present _ _ _ _ i j w vs hf hk hd h3) hw
    | none =>
      obtain ⟨hr, hs⟩ := h2 m (by simp) hf
      cases hk : m.kind with
      | required => exact absurd hk hr
      | optional => exact go _ (.none _ _ _ _ _ hf hk h3) (hs _ fun _ => rfl)
      | default => exact go _ (.keep _ _ _ _ _ hf hk h3) (hs _ fun h => by rw [hk] at h; cases h)

/-- What a document denotes for the old type, it denotes for the new one, and the data are the same. -/
theorem decodes_widen (env : Env) (hdist : ∀ c, ((env.members c).map (·.name)).Nodup) (R : Nat → Nat → Prop) (hR : Replaces env R) (loose : Bool) :
    ∀ (n : Nat) (t t' : Ty), Widens R t t' → ∀ j, sizeOf j ≤ n → (loose = false → Entire env t j) → ∀ tg tg' v, Decodes env t j tg v →
      ∃ v', Decodes env t' j tg' v' ∧ Carried env loose t t' v v' := by
  intro n
  induction n with
  | zero =>
    intro t t' _ j hj
    cases j <;> simp at hj
  | succ n ihn =>
    intro t t' hw
    induction hw with
    | prim p p' h =>
      intro j _ hc tg tg' v hd
      cases hd with
      | prim _ _ _ pv hl =>
        obtain ⟨pv', h1, h2⟩ := leaf_widens (loose := loose) h hc hl
        exact ⟨_, .prim p' j tg' pv' h1, .prim _ _ _ _ h2⟩
    | vec t t' _ ih =>
      intro j hj hc tg tg' v hd
      cases hd with
      | vec _ js _ vs h =>
        obtain ⟨vs', h1, h2, h3⟩ := decodesAll_widen (C := Carried env loose t t') (t' := t') h fun j' hm v hv =>
          ih j' (by have := List.sizeOf_lt_of_mem hm; simp only [Json.arr.sizeOf_spec] at hj; omega)
            (fun hl => (hc hl).used (.child _ _ _ _ (by simp) (.vec _ _ _ hm))) _ _ v hv
        exact ⟨_, .vec t' js tg' vs' h1, .vec _ _ _ _ h2 h3⟩
    | arr k t t' _ ih =>
      intro j hj hc tg tg' v hd
      cases hd with
      | arr _ _ js _ vs hk h =>
        obtain ⟨vs', h1, h2, h3⟩ := decodesAll_widen (C := Carried env loose t t') (t' := t') h fun j' hm v hv =>
          ih j' (by have := List.sizeOf_lt_of_mem hm; simp only [Json.arr.sizeOf_spec] at hj; omega)
            (fun hl => (hc hl).used (.child _ _ _ _ (by simp) (.arr _ _ _ _ hm))) _ _ v hv
        have := decodesAll_length h
        exact ⟨_, .arr k t' js tg' vs' hk h1, .arr _ _ _ _ _ (by omega) (by omega) h3⟩
    | arrVec k t t' _ ih =>
      intro j hj hc tg tg' v hd
      cases hd with
      | arr _ _ js _ vs hk h =>
        obtain ⟨vs', h1, h2, h3⟩ := decodesAll_widen (C := Carried env loose t t') (t' := t') h fun j' hm v hv =>
          ih j' (by have := List.sizeOf_lt_of_mem hm; simp only [Json.arr.sizeOf_spec] at hj; omega)
            (fun hl => (hc hl).used (.child _ _ _ _ (by simp) (.arr _ _ _ _ hm))) _ _ v hv
        have := decodesAll_length h
        exact ⟨_, .vec t' js tg' vs' h1, .arrVec _ _ _ _ _ (by omega) (by omega) h3⟩
    | setVec t t' _ ih =>
      intro j hj hc tg tg' v hd
      cases hd with
      | set _ js _ vs h =>
        obtain ⟨vs', h1, h2, h3⟩ := decodesAll_widen (C := Carried env loose t t') (t' := t') h fun j' hm v hv =>
          ih j' (by have := List.sizeOf_lt_of_mem hm; simp only [Json.arr.sizeOf_spec] at hj; omega)
            (fun hl => (hc hl).used (.child _ _ _ _ (by simp) (.set _ _ _ hm))) _ _ v hv
        exact ⟨_, .vec t' js tg' vs' h1, .setVec _ _ _ _ h2 h3⟩
    | set t =>
      intro j _ _ tg tg' v hd
      cases hd with
      | set _ js _ vs h => exact ⟨_, .set t js tg' vs h, .set _ _⟩
    | map o o' t t' _ ih =>
      intro j hj hc tg tg' v hd
      cases hd with
      | map _ _ ms _ kvs h =>
        obtain ⟨kvs', h1, h2⟩ := decodesEntries_widen (C := Carried env loose t t') (t' := t') h fun p hm v hv =>
          ih p.2 (by
            have := List.sizeOf_lt_of_mem hm
            have : sizeOf p = 1 + sizeOf p.1 + sizeOf p.2 := by cases p; rfl
            simp only [Json.obj.sizeOf_spec] at hj
            omega)
            (fun hl => (hc hl).used (.child _ _ _ _ (by simp) (.map _ _ _ _ hm))) _ _ v hv
        have h3 := beside_mapOf h2
        exact ⟨_, .map o' t' ms tg' kvs' h1, .map _ _ _ _ _ _ (beside_keys h3) fun i p p' hp hp' => (h3.2 i p p' hp hp').2⟩
    | dict t =>
      intro j _ _ tg tg' v hd
      cases hd with
      | dict _ js _ vs h => exact ⟨_, .dict t js tg' vs h, .dict _ _⟩
    | tuple ts ts' hlen _ ih =>
      intro j hj hc tg tg' v hd
      cases hd with
      | tuple _ js _ vs h =>
        obtain ⟨vs', h1, h2⟩ := decodesEach_widen (C := Carried env loose) (ts' := ts') tg'.components h hlen fun i t t' j' ht ht' hm tg tg' v hv =>
          ih i t t' ht ht' j' (by have := List.sizeOf_lt_of_mem (List.mem_of_getElem? hm); simp only [Json.arr.sizeOf_spec] at hj; omega)
            (fun hl => (hc hl).used (.child _ _ _ _ (by simp) (.tuple _ _ i _ _ ht hm))) tg tg' v hv
        exact ⟨_, .tuple ts' js tg' vs' h1, .tuple _ _ _ _ (decodesEach_length h).1 (decodesEach_length h1).1 hlen h2⟩
    | tupleVec ts t' _ ih =>
      intro j hj hc tg tg' v hd
      cases hd with
      | tuple _ js _ vs h =>
        obtain ⟨vs', h1, hl, h2⟩ := decodesEach_all (C := fun t => Carried env loose t t') (t' := t') h fun i t j' ht hm tg v hv =>
          ih t (List.mem_of_getElem? ht) j' (by have := List.sizeOf_lt_of_mem (List.mem_of_getElem? hm); simp only [Json.arr.sizeOf_spec] at hj; omega)
            (fun hl => (hc hl).used (.child _ _ _ _ (by simp) (.tuple _ _ i _ _ ht hm))) tg (env.fresh t') v hv
        exact ⟨_, .vec t' js tg' vs' h1, .tupleVec _ _ _ _ (decodesEach_length h).1 hl h2⟩
    | variant pre t t' more _ ih =>
      intro j hj hc tg tg' v hd
      cases hd with
      | variant _ _ _ i u w hi hbefore hd =>
        rcases Nat.lt_or_ge i pre.length with h | h
        · rw [List.getElem?_append_left h] at hi
          refine ⟨_, .variant _ j tg' i u w (by rw [List.getElem?_append_left h]; exact hi) (fun k u' hk hu' => ?_) hd, .variant _ _ _ _ _ _ h⟩
          rw [List.getElem?_append_left (hk.trans h)] at hu'
          exact hbefore k u' hk (by rw [List.getElem?_append_left (hk.trans h)]; exact hu')
        · rw [List.getElem?_append_right h, List.getElem?_singleton] at hi
          split at hi
          · cases hi
            obtain rfl : i = pre.length := by omega
            obtain ⟨w', h1, h2⟩ := ih j hj (fun hl => (hc hl).used (.variant _ _ pre.length _ w (by simp) hbefore hd)) _ (env.fresh t') w hd
            refine ⟨_, .variant _ j tg' pre.length t' w' (by simp) (fun k u' hk hu' => ?_) h1, .variantLast _ _ _ _ _ _ h2⟩
            rw [List.getElem?_append_left hk] at hu'
            exact hbefore k u' hk (by rw [List.getElem?_append_left hk]; exact hu')
          · cases hi
    | toVariant t t' more _ ih =>
      intro j hj hc tg tg' v hd
      obtain ⟨w', h1, h2⟩ := ih j hj hc tg (env.fresh t') v hd
      exact ⟨_, .variant _ j tg' 0 t' w' rfl (fun k _ hk => by omega) h1, .toVariant _ _ _ _ _ h2⟩
    | cls c c' hcc =>
      intro j hj hc tg tg' v hd
      cases hd with
      | cls _ fields _ vs h =>
        obtain ⟨hlen, hslots⟩ := decodesMembers_slots h
        have hsize : ∀ {name : Str} {i : Nat} {x : Json}, findMember name fields = some (i, x) → sizeOf x ≤ n := by
          intro name i x hf
          have := List.sizeOf_lt_of_mem (findMember_mem hf)
          simp only [Json.obj.sizeOf_spec, Prod.mk.sizeOf_spec] at hj this
          omega
        have hindex : ∀ {i k : Nat} {m m1 : Member}, (env.members c)[i]? = some m → (env.members c)[k]? = some m1 → m.name = m1.name → i = k := by
          intro i k m m1 hm hm1 he
          obtain ⟨h5, h5'⟩ := List.getElem?_eq_some_iff.1 hm
          obtain ⟨h6, h6'⟩ := List.getElem?_eq_some_iff.1 hm1
          have h7 : i < ((env.members c).map (·.name)).length := by rw [List.length_map]; exact h5
          have h8 : k < ((env.members c).map (·.name)).length := by rw [List.length_map]; exact h6
          have h9 : ((env.members c).map (·.name))[i] = ((env.members c).map (·.name))[k] := by
            rw [List.getElem_map, List.getElem_map, h5', h6', he]
          exact (List.Nodup.getElem_inj_iff (hdist c)).1 h9
        have huniq : ∀ {m m1 : Member}, m ∈ env.members c → m1 ∈ env.members c → m.name = m1.name → m = m1 := by
          intro m m1 hm hm1 he
          obtain ⟨i, hi⟩ := List.mem_iff_getElem?.1 hm
          obtain ⟨k, hk⟩ := List.mem_iff_getElem?.1 hm1
          obtain rfl := hindex hi hk he
          rw [hi] at hk
          cases hk
          rfl
        suffices hsuff : _ ∧ _ by
          obtain ⟨vs', h1, hlen', h2⟩ := members_decode (env := env) (fields := fields) (D := fun m' s' => ∀ (i : Nat) m s, (env.members c)[i]? = some m →
            m.name = m'.name → vs[i]? = some s → CarriedSlot env loose m m' s s') (env.members c') tg'.members hsuff.1 hsuff.2
          exact ⟨_, .cls c' fields tg' vs' h1, .cls _ _ _ _ hlen hlen' fun i i' m m' s s' hm hm' hn hs hs' => h2 i' m' s' hm' hs' i m s hm hn hs⟩
        constructor
        · intro m' hm' i x hf tg1
          obtain ⟨m, hm, hmm⟩ := hR c c' hcc m' hm'
          obtain ⟨k, hk⟩ := List.mem_iff_getElem?.1 hm
          have hs : ∃ s, vs[k]? = some s := by
            have : k < vs.length := by rw [hlen]; exact (List.getElem?_eq_some_iff.1 hk).1
            exact ⟨_, List.getElem?_eq_getElem this⟩
          obtain ⟨s, hs⟩ := hs
          have hf' : findMember m.name fields = some (i, x) := by rw [hmm.name]; exact hf
          cases hslots k m s hk hs with
          | absent hn => rw [hn] at hf'; cases hf'
          | keep _ hn => rw [hn] at hf'; cases hf'
          | held i1 x1 tg2 w hf1 hd1 =>
            rw [hf'] at hf1
            cases hf1
            obtain ⟨w', h3, h4⟩ := ihn m.ty m'.ty hmm.ty x (hsize hf)
              (fun hl => (hc hl).used (.child _ _ _ _ (by simp) (.cls _ _ m i _ hm hf'))) tg2 tg1 w hd1
            refine ⟨w', h3, fun i2 m2 s2 hm2 hn2 hs2 => ?_⟩
            obtain rfl : m2 = m := huniq (List.mem_of_getElem? hm2) hm (hn2.trans hmm.name.symm)
            obtain rfl : i2 = k := hindex hm2 hk rfl
            rw [hs] at hs2
            cases hs2
            exact .held _ _ _ _ h4
        · intro m' hm' hf
          obtain ⟨m, hm, hmm⟩ := hR c c' hcc m' hm'
          have hf' : findMember m.name fields = none := by rw [hmm.name]; exact hf
          have hreq : m.kind ≠ .required := by
            obtain ⟨k, hk⟩ := List.mem_iff_getElem?.1 hm
            have : k < vs.length := by rw [hlen]; exact (List.getElem?_eq_some_iff.1 hk).1
            have hx := hslots k m _ hk (List.getElem?_eq_getElem this)
            generalize vs[k] = x at hx
            cases hx with
            | absent _ h => rw [h]; decide
            | keep _ _ h => rw [h]; decide
            | held i1 x1 tg2 w hf1 => rw [hf'] at hf1; cases hf1
          refine ⟨fun h => hreq (hmm.kind h), fun s' hs' i m2 s hm2 hn2 hs => ?_⟩
          obtain rfl : m2 = m := huniq (List.mem_of_getElem? hm2) hm (hn2.trans hmm.name.symm)
          generalize hgs : s = s0 at hs
          cases hslots i m2 s0 hm2 hs with
          | absent _ h => exact .absent _ _ _ h (fun h => hreq (hmm.kind h)) hs'
          | held i1 x1 tg2 w hf1 => rw [hf'] at hf1; cases hf1
          | keep _ _ h =>
            cases hlo : loose with
            | false => exact absurd hf' ((hc hlo).members c fields (.self _ _) m2 hm h)
            | true => exact .default _ _ _ _ rfl h (fun h => hreq (hmm.kind h)) hs'
    | ptr t t' _ ih =>
      intro j hj hc tg tg' v hd
      cases hd with
      | uptr _ _ _ w h =>
        obtain ⟨w', h1, h2⟩ := ih j hj (fun hl => (hc hl).used (.child _ _ _ _ (by simp) (.uptr _ _))) _ (env.ctor t') w h
        exact ⟨_, .uptr t' j tg' w' h1, .ptr _ _ _ _ h2⟩
    | toPtr t t' _ ih =>
      intro j hj hc tg tg' v hd
      obtain ⟨w', h1, h2⟩ := ih j hj hc tg (env.ctor t') v hd
      exact ⟨_, .uptr t' j tg' w' h1, .toPtr _ _ _ _ h2⟩
    | ofPtr t t' _ ih =>
      intro j hj hc tg tg' v hd
      cases hd with
      | uptr _ _ _ w h =>
        obtain ⟨w', h1, h2⟩ := ih j hj (fun hl => (hc hl).used (.child _ _ _ _ (by simp) (.uptr _ _))) _ tg' w h
        exact ⟨w', h1, .ofPtr _ _ _ _ h2⟩

end Verif.Core
