import Verif.Dispatch

/-!
# The choice of specialisations: what the headers and the operations have in common

`Contains` is the specification of "occurs in the type".
-/

namespace Verif.Dispatch
open Verif.Core Verif.Numeric Verif.EnumConv

/-- The immediate components. -/
def comps : CTy → List CTy
  | .vec t | .arr _ t | .set t | .map _ _ t | .optional t | .raw t | .uptr t | .sptr t => [t]
  | .pair s t => [s, t]
  | .tuple ts | .variant ts => ts
  | _ => []

/-- `Contains s t`: `s` occurs in `t`. -/
inductive Contains (s : CTy) : CTy → Prop
  | self : Contains s s
  | inside (t u : CTy) : u ∈ comps t → Contains s u → Contains s t

theorem contains_iff (s t : CTy) : Contains s t ↔ s = t ∨ ∃ u ∈ comps t, Contains s u := by
  constructor
  · rintro (_ | ⟨_, u, hu, h⟩)
    · exact .inl rfl
    · exact .inr ⟨u, hu, h⟩
  · rintro (rfl | ⟨u, hu, h⟩)
    · exact .self
    · exact .inside _ u hu h

/-- No type that is in `t` has the property. -/
def Free (p : CTy → Prop) (t : CTy) : Prop := ∀ s, Contains s t → ¬ p s

theorem free_iff (p : CTy → Prop) (t : CTy) : Free p t ↔ ¬ p t ∧ ∀ u ∈ comps t, Free p u := by
  constructor
  · intro h
    exact ⟨h t .self, fun u hu s hs => h s (.inside _ u hu hs)⟩
  · rintro ⟨h1, h2⟩ s hs
    rcases (contains_iff s t).1 hs with rfl | ⟨u, hu, h⟩
    · exact h1
    · exact h2 u hu s h

/-- Binary data. -/
def IsBytes (t : CTy) : Prop := t = .vec .byte

/-- A vector of pairs whose first component is a string: `string_dict` and `literal_dict`. -/
def IsDict (t : CTy) : Prop := ∃ s, t = .vec (.pair .str s) ∨ t = .vec (.pair .view s)

/-- What has to be the same for the same choice. -/
def Fixed (B D : Prop) (t : CTy) : Prop := ((∃ s, Contains s t ∧ IsBytes s) → B) ∧ ((∃ s, Contains s t ∧ IsDict s) → D)

theorem fixed_iff (B D : Prop) (t : CTy) : Fixed B D t ↔ (IsBytes t → B) ∧ (IsDict t → D) ∧ ∀ u ∈ comps t, Fixed B D u := by
  constructor
  · rintro ⟨h1, h2⟩
    exact ⟨fun h => h1 ⟨t, .self, h⟩, fun h => h2 ⟨t, .self, h⟩, fun u hu =>
      ⟨fun ⟨s, hs, h⟩ => h1 ⟨s, .inside _ u hu hs, h⟩, fun ⟨s, hs, h⟩ => h2 ⟨s, .inside _ u hu hs, h⟩⟩⟩
  · rintro ⟨h1, h2, h3⟩
    refine ⟨fun ⟨s, hs, h⟩ => ?_, fun ⟨s, hs, h⟩ => ?_⟩ <;> rcases (contains_iff s t).1 hs with rfl | ⟨u, hu, h'⟩
    · exact h1 h
    · exact (h3 u hu).1 ⟨s, h', h⟩
    · exact h2 h
    · exact (h3 u hu).2 ⟨s, h', h⟩

theorem isBytes_vec (t : CTy) : IsBytes (.vec t) ↔ t = .byte := by simp [IsBytes]

theorem isDict_vec (t : CTy) : IsDict (.vec t) ↔ ∃ s, t = .pair .str s ∨ t = .pair .view s := by simp [IsDict]

theorem map_eq_some {x : Option Ty} {f : Ty → Ty} {T : Ty} (h : f <$> x = some T) : ∃ T1, x = some T1 ∧ T = f T1 := by
  cases x with
  | none => cases h
  | some y => cases h; exact ⟨y, rfl, rfl⟩

theorem pick_map {α : Type} {op : Op} {inc : Header → Bool} {f : Form} {x : Option α} {g : α → Ty} {T : Ty} (h : pick op inc f (g <$> x) = some T) :
    offers op inc f = true ∧ ∃ T1, x = some T1 ∧ T = g T1 := by
  unfold pick at h
  split at h
  · rename_i ho
    cases x with
    | none => cases h
    | some y => cases h; exact ⟨ho, y, rfl, rfl⟩
  · cases h

theorem pick_some {op : Op} {inc : Header → Bool} {f : Form} {S T : Ty} (h : pick op inc f (some S) = some T) : S = T := by
  unfold pick at h
  split at h
  · cases h; rfl
  · cases h

theorem pick_pair {op : Op} {inc : Header → Bool} {s t : CTy} {T : Ty} (h : resolve op inc (.pair s t) = some T) :
    ∃ S1 T1, resolve op inc s = some S1 ∧ resolve op inc t = some T1 ∧ T = .tuple [S1, T1] := by
  rw [resolve, pick] at h
  split at h
  · cases hs : resolve op inc s with
    | none => rw [hs] at h; cases h
    | some S1 =>
      cases ht : resolve op inc t with
      | none => rw [hs, ht] at h; cases h
      | some T1 => rw [hs, ht] at h; cases h; exact ⟨S1, T1, rfl, rfl, rfl⟩
  · cases h

theorem cons_some {op : Op} {inc : Header → Bool} {t : CTy} {ts : List CTy} {Ts : List Ty} (h : resolveAll op inc (t :: ts) = some Ts) :
    ∃ S1 T1, resolve op inc t = some S1 ∧ resolveAll op inc ts = some T1 ∧ Ts = S1 :: T1 := by
  rw [resolveAll] at h
  cases hs : resolve op inc t with
  | none => rw [hs] at h; cases h
  | some S1 =>
    cases ht : resolveAll op inc ts with
    | none => rw [hs, ht] at h; cases h
    | some T1 => rw [hs, ht] at h; cases h; exact ⟨S1, T1, rfl, rfl, rfl⟩

theorem fixed_leaf (B D : Prop) (t : CTy) (h1 : comps t = []) (h2 : ∀ s, t ≠ .vec s) : Fixed B D t := by
  rw [fixed_iff]
  refine ⟨fun h => absurd h (h2 _), ?_, by simp [h1]⟩
  rintro ⟨s, h | h⟩ <;> exact absurd h (h2 _)

theorem fixed_byte (B D : Prop) : Fixed B D .byte := fixed_leaf B D _ rfl nofun
theorem fixed_str (B D : Prop) : Fixed B D .str := fixed_leaf B D _ rfl nofun
theorem fixed_view (B D : Prop) : Fixed B D .view := fixed_leaf B D _ rfl nofun

theorem fixed_pair (B D : Prop) (s t : CTy) : Fixed B D (.pair s t) ↔ Fixed B D s ∧ Fixed B D t := by
  rw [fixed_iff]
  simp [comps, IsBytes, IsDict]

theorem fixed_dict_str (B D : Prop) (t : CTy) : Fixed B D (.vec (.pair .str t)) ↔ D ∧ Fixed B D t := by
  rw [fixed_iff]
  simp [comps, isBytes_vec, isDict_vec, fixed_pair, fixed_str]

theorem fixed_dict_view (B D : Prop) (t : CTy) : Fixed B D (.vec (.pair .view t)) ↔ D ∧ Fixed B D t := by
  rw [fixed_iff]
  simp [comps, isBytes_vec, isDict_vec, fixed_pair, fixed_view]

theorem resolve_vec (op : Op) (inc : Header → Bool) (t : CTy) (h1 : t ≠ .byte) (h2 : ∀ s, t ≠ .pair .str s) (h3 : ∀ s, t ≠ .pair .view s) :
    resolve op inc (.vec t) = pick op inc .vec (.vec <$> resolve op inc t) := by
  rw [resolve]
  · exact h1
  · exact h2
  · exact h3

theorem leaf_same {op op' : Op} {inc inc' : Header → Bool} {f : Form} {S T T' : Ty} {B D : Prop} (t : CTy) (h1 : comps t = []) (h2 : ∀ s, t ≠ .vec s)
    (h3 : pick op inc f (some S) = some T) (h4 : pick op' inc' f (some S) = some T') : T = T' ↔ Fixed B D t := by
  rw [← pick_some h3, ← pick_some h4]
  exact ⟨fun _ => fixed_leaf B D t h1 h2, fun _ => rfl⟩

theorem unary_same {op op' : Op} {inc inc' : Header → Bool} {f : Form} {T T' : Ty} {B D : Prop} (t u : CTy) (g : Ty → Ty) (hg : ∀ x y, g x = g y → x = y)
    (h1 : comps t = [u]) (h2 : ∀ s, t ≠ .vec s)
    (h3 : pick op inc f (g <$> resolve op inc u) = some T) (h4 : pick op' inc' f (g <$> resolve op' inc' u) = some T')
    (ih : ∀ T T', resolve op inc u = some T → resolve op' inc' u = some T' → (T = T' ↔ Fixed B D u)) : T = T' ↔ Fixed B D t := by
  obtain ⟨-, T1, g1, rfl⟩ := pick_map h3
  obtain ⟨-, T2, g2, rfl⟩ := pick_map h4
  rw [fixed_iff, h1]
  have h5 : ¬ IsBytes t := h2 _
  have h6 : ¬ IsDict t := by rintro ⟨s, h | h⟩ <;> exact absurd h (h2 _)
  have h7 : g T1 = g T2 ↔ T1 = T2 := ⟨hg _ _, fun h => by rw [h]⟩
  simp [h5, h6, h7, ih _ _ g1 g2]

/-- The two choices are equal if and only if what has to be the same is the same. -/
theorem resolve_same (op op' : Op) (inc inc' : Header → Bool) (t : CTy) :
    ∀ T T', resolve op inc t = some T → resolve op' inc' t = some T' →
      (T = T' ↔ Fixed (offers op inc .bytes = offers op' inc' .bytes) (offers op inc .dict = offers op' inc' .dict) t) := by
  refine (resolve.mutual_induct op inc (fun t => ∀ T T', resolve op inc t = some T → resolve op' inc' t = some T' →
      (T = T' ↔ Fixed (offers op inc .bytes = offers op' inc' .bytes) (offers op inc .dict = offers op' inc' .dict) t))
    (fun ts => ∀ Ts Ts', resolveAll op inc ts = some Ts → resolveAll op' inc' ts = some Ts' →
      (Ts = Ts' ↔ ∀ t ∈ ts, Fixed (offers op inc .bytes = offers op' inc' .bytes) (offers op inc .dict = offers op' inc' .dict) t))
    ?_ ?_ ?_ ?_ ?_ ?_ ?_ ?_ ?_ ?_ ?_ ?_ ?_ ?_ ?_ ?_ ?_ ?_ ?_ ?_ ?_ ?_ ?_ ?_ ?_ ?_ ?_ ?_ ?_ ?_ ?_ ?_ ?_ ?_ ?_ ?_ ?_).1 t
  · intro T T' h1 h2
    rw [resolve] at h1 h2
    exact leaf_same _ rfl nofun h1 h2
  · intro T T' h1 h2
    rw [resolve] at h1 h2
    exact leaf_same _ rfl nofun h1 h2
  · intro t T T' h1 h2
    rw [resolve] at h1 h2
    exact leaf_same _ rfl nofun h1 h2
  · intro t T T' h1 h2
    rw [resolve] at h1 h2
    exact leaf_same _ rfl nofun h1 h2
  · intro t T T' h1 h2
    rw [resolve] at h1 h2
    exact leaf_same _ rfl nofun h1 h2
  · intro T T' h1 h2
    rw [resolve] at h1 h2
    exact leaf_same _ rfl nofun h1 h2
  · intro T T' h1 h2
    rw [resolve] at h1 h2
    exact leaf_same _ rfl nofun h1 h2
  · intro T T' h1 h2
    rw [resolve] at h1 h2
    exact leaf_same _ rfl nofun h1 h2
  · intro n T T' h1 h2
    rw [resolve] at h1 h2
    exact leaf_same _ rfl nofun h1 h2
  · intro T T' h1 h2
    rw [resolve] at h1 h2
    exact leaf_same _ rfl nofun h1 h2
  · intro t T T' h1 h2
    rw [resolve] at h1 h2
    exact leaf_same _ rfl nofun h1 h2
  · intro tab T T' h1 h2
    rw [resolve] at h1 h2
    exact leaf_same _ rfl nofun h1 h2
  · intro T T' h1 h2
    rw [resolve] at h1 h2
    exact leaf_same _ rfl nofun h1 h2
  · intro T T' h1 h2
    rw [resolve] at h1 h2
    exact leaf_same _ rfl nofun h1 h2
  · -- `std::vector<std::byte>` with the specialisation for it
    intro hb T T' h1 h2
    rw [resolve, if_pos hb] at h1
    cases h1
    rw [resolve] at h2
    rw [fixed_iff]
    simp only [isBytes_vec, isDict_vec, comps, List.mem_singleton, forall_eq, fixed_byte, hb, true_implies, and_true, reduceCtorEq, or_self, exists_false, false_implies]
    split at h2
    · cases h2
      simp [*]
    · simp [resolve, pick] at h2
      obtain ⟨-, -, rfl⟩ := h2
      simp [*]
  · intro hb _ T T' h1 h2
    rw [resolve, if_neg hb] at h1
    simp [resolve, pick] at h1
    obtain ⟨-, -, rfl⟩ := h1
    rw [resolve] at h2
    rw [fixed_iff]
    simp only [isBytes_vec, isDict_vec, comps, List.mem_singleton, forall_eq, fixed_byte, true_implies, and_true, reduceCtorEq, or_self, exists_false, false_implies]
    split at h2
    · cases h2
      simp [*]
    · simp [resolve, pick] at h2
      obtain ⟨-, -, rfl⟩ := h2
      simp [*]
  · -- vectors of pairs with the specialisation for dictionaries
    intro t hd ih T T' h1 h2
    rw [resolve, if_pos hd] at h1
    obtain ⟨T1, g1, rfl⟩ := map_eq_some h1
    rw [resolve] at h2
    rw [fixed_dict_str]
    split at h2
    · rename_i hd'
      obtain ⟨T2, g2, rfl⟩ := map_eq_some h2
      simp [ih _ _ g1 g2, hd, hd']
    · rename_i hd'
      obtain ⟨-, T2, g2, rfl⟩ := pick_map h2
      simp [hd, hd']
  · intro t hd ih T T' h1 h2
    rw [resolve, if_neg hd] at h1
    obtain ⟨-, T1, g1, rfl⟩ := pick_map h1
    rw [resolve] at h2
    rw [fixed_dict_str]
    split at h2
    · rename_i hd'
      obtain ⟨T2, g2, rfl⟩ := map_eq_some h2
      simp [hd, hd']
    · rename_i hd'
      obtain ⟨-, T2, g2, rfl⟩ := pick_map h2
      simp [ih _ _ g1 g2, fixed_pair, fixed_str, hd, hd']
  · -- vectors of pairs with the specialisation for dictionaries
    intro t hd ih T T' h1 h2
    rw [resolve, if_pos hd] at h1
    obtain ⟨T1, g1, rfl⟩ := map_eq_some h1
    rw [resolve] at h2
    rw [fixed_dict_view]
    split at h2
    · rename_i hd'
      obtain ⟨T2, g2, rfl⟩ := map_eq_some h2
      simp [ih _ _ g1 g2, hd, hd']
    · rename_i hd'
      obtain ⟨-, T2, g2, rfl⟩ := pick_map h2
      simp [hd, hd']
  · intro t hd ih T T' h1 h2
    rw [resolve, if_neg hd] at h1
    obtain ⟨-, T1, g1, rfl⟩ := pick_map h1
    rw [resolve] at h2
    rw [fixed_dict_view]
    split at h2
    · rename_i hd'
      obtain ⟨T2, g2, rfl⟩ := map_eq_some h2
      simp [hd, hd']
    · rename_i hd'
      obtain ⟨-, T2, g2, rfl⟩ := pick_map h2
      simp [ih _ _ g1 g2, fixed_pair, fixed_view, hd, hd']
  · intro t n1 n2 n3 ih T T' h1 h2
    rw [resolve_vec _ _ _ n1 n2 n3] at h1 h2
    obtain ⟨-, T1, g1, rfl⟩ := pick_map h1
    obtain ⟨-, T2, g2, rfl⟩ := pick_map h2
    rw [fixed_iff]
    simp only [Ty.vec.injEq, ih _ _ g1 g2, isBytes_vec, isDict_vec, comps, List.mem_singleton, forall_eq]
    exact ⟨fun h => ⟨fun e => (n1 e).elim, fun ⟨s, hs⟩ => (hs.elim (n2 s) (n3 s)).elim, h⟩, fun h => h.2.2⟩
  · intro n t ih T T' h1 h2
    rw [resolve] at h1 h2
    exact unary_same _ _ _ (fun x y h => by cases h; rfl) rfl nofun h1 h2 ih
  · intro t ih T T' h1 h2
    rw [resolve] at h1 h2
    exact unary_same _ _ _ (fun x y h => by cases h; rfl) rfl nofun h1 h2 ih
  · intro o t ih T T' h1 h2
    rw [resolve] at h1 h2
    exact unary_same _ _ _ (fun x y h => by cases h; rfl) rfl nofun h1 h2 ih
  · intro o t ih T T' h1 h2
    rw [resolve] at h1 h2
    exact unary_same _ _ _ (fun x y h => by cases h; rfl) rfl nofun h1 h2 ih
  · intro s t ih1 ih2 T T' h1 h2
    obtain ⟨S1, T1, h3, h4, rfl⟩ := pick_pair h1
    obtain ⟨S2, T2, h5, h6, rfl⟩ := pick_pair h2
    simp [fixed_pair, ih1 _ _ h3 h5, ih2 _ _ h4 h6]
  · intro ts ih T T' h1 h2
    rw [resolve] at h1 h2
    obtain ⟨-, T1, g1, rfl⟩ := pick_map h1
    obtain ⟨-, T2, g2, rfl⟩ := pick_map h2
    rw [fixed_iff]
    simp [ih _ _ g1 g2, comps, IsBytes, IsDict]
  · intro ts ih T T' h1 h2
    rw [resolve] at h1 h2
    obtain ⟨-, T1, g1, rfl⟩ := pick_map h1
    obtain ⟨-, T2, g2, rfl⟩ := pick_map h2
    rw [fixed_iff]
    simp [ih _ _ g1 g2, comps, IsBytes, IsDict]
  · intro t ih T T' h1 h2
    rw [resolve] at h1 h2
    exact unary_same _ _ _ (fun x y h => by cases h; rfl) rfl nofun h1 h2 ih
  · intro c T T' h1 h2
    rw [resolve] at h1 h2
    exact leaf_same _ rfl nofun h1 h2
  · intro t ih T T' h1 h2
    rw [resolve] at h1 h2
    exact unary_same _ _ _ (fun x y h => by cases h; rfl) rfl nofun h1 h2 ih
  · intro t hp ih T T' h1 h2
    rw [resolve, if_pos hp] at h1
    rw [resolve] at h2
    split at h2
    case isFalse => cases h2
    obtain ⟨-, T1, g1, rfl⟩ := pick_map h1
    obtain ⟨-, T2, g2, rfl⟩ := pick_map h2
    rw [fixed_iff]
    simp [ih _ _ g1 g2, comps, IsBytes, IsDict]
  · intro t hp T T' h1 h2
    rw [resolve, if_neg hp] at h1
    cases h1
  · intro t hp ih T T' h1 h2
    rw [resolve, if_pos hp] at h1
    rw [resolve] at h2
    split at h2
    case isFalse => cases h2
    obtain ⟨-, T1, g1, rfl⟩ := pick_map h1
    obtain ⟨-, T2, g2, rfl⟩ := pick_map h2
    rw [fixed_iff]
    simp [ih _ _ g1 g2, comps, IsBytes, IsDict]
  · intro t hp T T' h1 h2
    rw [resolve, if_neg hp] at h1
    cases h1
  · intro Ts Ts' h1 h2
    rw [resolveAll] at h1 h2
    cases h1
    cases h2
    simp
  · intro t ts ih1 ih2 Ts Ts' h1 h2
    obtain ⟨S1, T1, h3, h4, rfl⟩ := cons_some h1
    obtain ⟨S2, T2, h5, h6, rfl⟩ := cons_some h2
    simp [ih1 _ _ h3 h5, ih2 _ _ h4 h6]

/-! ## Which types are supported -/

/-- Types of which a schema is made without a context: they have no components and are not classes. -/
inductive Scalar : CTy → Prop
  | null : Scalar .null
  | bool : Scalar .bool
  | int (t : IntTy) : Scalar (.int t)
  | otherInt (t : IntTy) : Scalar (.otherInt t)
  | flt (t : FltTy) : Scalar (.flt t)
  | longDouble : Scalar .longDouble
  | str : Scalar .str
  | bytes : Scalar (.vec .byte)
  | byte : Scalar .byte
  | enumInt (t : IntTy) : Scalar (.enumInt t)
  | enumStr (tab : Table) : Scalar (.enumStr tab)
  | time : Scalar .time
  | date : Scalar .date

/-- `Lacks op t`: the operation has nothing for types of this form. -/
inductive Lacks : Op → CTy → Prop
  | otherInt (op : Op) (t : IntTy) : op ≠ .schema → Lacks op (.otherInt t)
  | longDouble (op : Op) : op ≠ .schema → Lacks op .longDouble
  | optional (op : Op) (t : CTy) : op ≠ .parse → Lacks op (.optional t)
  | variant (ts : List CTy) : Lacks .parse (.variant ts)
  | view (op : Op) : op ≠ .serialize → op ≠ .write → Lacks op .view
  | chars (op : Op) (n : Nat) : op ≠ .serialize → op ≠ .write → Lacks op (.chars n)
  | viewMap (op : Op) (o : Bool) (t : CTy) : op ≠ .serialize → op ≠ .write → Lacks op (.map o true t)
  | raw (op : Op) (t : CTy) : op ≠ .serialize → op ≠ .write → Lacks op (.raw t)
  | uptr (t : CTy) : Scalar t → Lacks .schema (.uptr t)
  | sptr (t : CTy) : Scalar t → Lacks .schema (.sptr t)

/-- All headers. -/
def everything : Header → Bool := fun _ => true

theorem pick_isSome (op : Op) (inc : Header → Bool) (f : Form) (x : Option Ty) : (pick op inc f x).isSome = (offers op inc f && x.isSome) := by
  unfold pick
  cases offers op inc f <;> simp

theorem map_isSome {α : Type} (g : α → Ty) (x : Option α) : (g <$> x).isSome = x.isSome := by cases x <;> rfl

theorem pair_isSome (op : Op) (inc : Header → Bool) (s t : CTy) :
    (resolve op inc (.pair s t)).isSome = (offers op inc .pair && ((resolve op inc s).isSome && (resolve op inc t).isSome)) := by
  rw [resolve, pick_isSome]
  cases resolve op inc s <;> cases resolve op inc t <;> rfl

theorem cons_isSome (op : Op) (inc : Header → Bool) (t : CTy) (ts : List CTy) :
    (resolveAll op inc (t :: ts)).isSome = ((resolve op inc t).isSome && (resolveAll op inc ts).isSome) := by
  rw [resolveAll]
  cases resolve op inc t <;> cases resolveAll op inc ts <;> rfl

/-- More headers support more types. -/
theorem resolve_mono (op : Op) (inc inc' : Header → Bool) (h : ∀ x, inc x = true → inc' x = true) (t : CTy) :
    (resolve op inc t).isSome = true → (resolve op inc' t).isSome = true := by
  have ho : ∀ f, offers op inc f = true → offers op inc' f = true := by
    intro f
    unfold offers
    split
    · exact id
    · exact h _
  refine (resolve.mutual_induct op inc (fun t => (resolve op inc t).isSome = true → (resolve op inc' t).isSome = true)
    (fun ts => (resolveAll op inc ts).isSome = true → (resolveAll op inc' ts).isSome = true)
    ?_ ?_ ?_ ?_ ?_ ?_ ?_ ?_ ?_ ?_ ?_ ?_ ?_ ?_ ?_ ?_ ?_ ?_ ?_ ?_ ?_ ?_ ?_ ?_ ?_ ?_ ?_ ?_ ?_ ?_ ?_ ?_ ?_ ?_ ?_ ?_ ?_).1 t
  case refine_15 =>
    intro hb _
    rw [resolve, if_pos (ho _ hb)]
    rfl
  case refine_16 =>
    intro hb ih
    rw [resolve, if_neg hb, pick_isSome, map_isSome]
    intro h1
    simp only [Bool.and_eq_true] at h1
    rw [resolve]
    split
    · rfl
    · simp [pick_isSome, ho _ h1.1, ih h1.2]
  case refine_17 | refine_19 =>
    intro t hd ih
    rw [resolve, if_pos hd, map_isSome, resolve, if_pos (ho _ hd), map_isSome]
    exact ih
  case refine_18 | refine_20 =>
    intro t hd ih
    rw [resolve, if_neg hd, pick_isSome, map_isSome]
    intro h1
    simp only [Bool.and_eq_true] at h1
    have h2 := ih h1.2
    rw [resolve]
    split
    · rw [pair_isSome] at h2
      simp only [Bool.and_eq_true] at h2
      rw [map_isSome]
      exact h2.2.2
    · simp [pick_isSome, ho _ h1.1, h2]
  case refine_21 =>
    intro t n1 n2 n3 ih
    rw [resolve_vec _ _ _ n1 n2 n3, resolve_vec _ _ _ n1 n2 n3, pick_isSome, pick_isSome, map_isSome, map_isSome]
    simp only [Bool.and_eq_true]
    exact fun h1 => ⟨ho _ h1.1, ih h1.2⟩
  case refine_26 =>
    intro s t ih1 ih2
    simp only [pair_isSome, Bool.and_eq_true]
    exact fun h1 => ⟨ho _ h1.1, ih1 h1.2.1, ih2 h1.2.2⟩
  case refine_32 | refine_34 =>
    intro t hp ih
    rw [resolve, if_pos hp, pick_isSome, map_isSome, resolve, if_pos hp, pick_isSome, map_isSome]
    simp only [Bool.and_eq_true]
    exact fun h1 => ⟨ho _ h1.1, ih h1.2⟩
  case refine_33 | refine_35 =>
    intro t hp
    rw [resolve, if_neg hp]
    nofun
  case refine_36 => exact fun _ => rfl
  case refine_37 =>
    intro t ts ih1 ih2
    simp only [cons_isSome, Bool.and_eq_true]
    exact fun h1 => ⟨ih1 h1.1, ih2 h1.2⟩
  all_goals first
    | (simp only [resolve, pick_isSome, Bool.and_eq_true]; intros; rename_i h1; exact ⟨ho _ h1.1, h1.2⟩)
    | (simp only [resolve, pick_isSome, map_isSome, Bool.and_eq_true]; intros; rename_i ih h1; exact ⟨ho _ h1.1, ih h1.2⟩)

theorem free_of {p : CTy → Prop} {t u : CTy} (h : Free p t) (hu : u ∈ comps t) : Free p u := ((free_iff p t).1 h).2 u hu

theorem aware_iff (t : CTy) (h : Free (Lacks .schema) t) : aware t = true ↔ ¬ Scalar t := by
  have h0 := h t .self
  cases t with
  | vec t =>
    by_cases ht : t = .byte
    · subst ht
      exact ⟨nofun, fun h => absurd .bytes h⟩
    · have : aware (.vec t) = true := by
        unfold aware
        split <;> simp_all
      simp only [this, true_iff]
      intro h
      cases h
      exact ht rfl
  | view => exact absurd (.view _ nofun nofun) h0
  | chars n => exact absurd (.chars _ n nofun nofun) h0
  | optional t => exact absurd (.optional _ t nofun) h0
  | raw t => exact absurd (.raw _ t nofun nofun) h0
  | _ => first
    | exact ⟨fun _ h => (nomatch h), fun _ => rfl⟩
    | exact ⟨nofun, fun h => absurd (by constructor) h⟩

theorem offers_iff (op : Op) (f : Form) : offers op everything f = (home op f).isSome := by
  unfold offers everything
  cases home op f <;> rfl

/-- The operation has something for types of every form that occurs: exactly then the type is supported. -/
theorem supported_iff (op : Op) (t : CTy) : (resolve op everything t).isSome = true ↔ Free (Lacks op) t := by
  refine (resolve.mutual_induct op everything (fun t => (resolve op everything t).isSome = true ↔ Free (Lacks op) t)
    (fun ts => (resolveAll op everything ts).isSome = true ↔ ∀ t ∈ ts, Free (Lacks op) t)
    ?_ ?_ ?_ ?_ ?_ ?_ ?_ ?_ ?_ ?_ ?_ ?_ ?_ ?_ ?_ ?_ ?_ ?_ ?_ ?_ ?_ ?_ ?_ ?_ ?_ ?_ ?_ ?_ ?_ ?_ ?_ ?_ ?_ ?_ ?_ ?_ ?_).1 t
  case refine_15 =>
    intro hb
    rw [resolve, if_pos hb, free_iff]
    simp only [Option.isSome_some, comps, List.mem_singleton, forall_eq, true_iff]
    refine ⟨nofun, ?_⟩
    rw [free_iff]
    exact ⟨nofun, nofun⟩
  case refine_16 =>
    intro hb
    rw [offers_iff] at hb
    cases op <;> exact absurd rfl hb
  case refine_17 | refine_19 =>
    intro t hd ih
    rw [resolve, if_pos hd, map_isSome, ih, free_iff _ (.vec _)]
    simp only [comps, List.mem_singleton, forall_eq]
    rw [free_iff _ (.pair _ _)]
    simp only [comps, List.mem_cons, List.not_mem_nil, or_false, forall_eq_or_imp, forall_eq]
    rw [offers_iff] at hd
    refine ⟨fun h => ⟨nofun, nofun, ?_, h⟩, fun h => h.2.2.2⟩
    rw [free_iff]
    exact ⟨by cases op <;> first | (intro h'; cases h' <;> contradiction) | exact (nomatch hd), nofun⟩
  case refine_18 | refine_20 =>
    intro t hd ih
    rw [resolve, if_neg hd, pick_isSome, map_isSome, free_iff, offers_iff]
    simp only [comps, List.mem_singleton, forall_eq, Bool.and_eq_true, ih]
    exact ⟨fun h => ⟨nofun, h.2⟩, fun h => ⟨by cases op <;> rfl, h.2⟩⟩
  case refine_21 =>
    intro t n1 n2 n3 ih
    rw [resolve_vec _ _ _ n1 n2 n3, pick_isSome, map_isSome, free_iff, offers_iff]
    simp only [comps, List.mem_singleton, forall_eq, Bool.and_eq_true, ih]
    exact ⟨fun h => ⟨nofun, h.2⟩, fun h => ⟨by cases op <;> rfl, h.2⟩⟩
  case refine_26 =>
    intro s t ih1 ih2
    simp only [pair_isSome, Bool.and_eq_true]
    rw [free_iff, offers_iff, ih1, ih2]
    simp only [comps, List.mem_cons, List.not_mem_nil, or_false, forall_eq_or_imp, forall_eq]
    exact ⟨fun h => ⟨nofun, h.2⟩, fun h => ⟨by cases op <;> rfl, h.2⟩⟩
  case refine_27 =>
    intro ts ih
    rw [resolve, pick_isSome, map_isSome, free_iff, offers_iff]
    simp only [comps, Bool.and_eq_true, ih]
    exact ⟨fun h => ⟨nofun, h.2⟩, fun h => ⟨by cases op <;> rfl, h.2⟩⟩
  case refine_28 =>
    intro ts ih
    rw [resolve, pick_isSome, map_isSome, free_iff, offers_iff]
    simp only [comps, Bool.and_eq_true, ih]
    exact ⟨fun h => ⟨by rintro ⟨⟩; exact (nomatch h.1), h.2⟩, fun h => ⟨by cases op <;> first | rfl | exact absurd (.variant ts) h.1, h.2⟩⟩
  case refine_32 | refine_34 =>
    intro t hp ih
    rw [resolve, if_pos hp, pick_isSome, map_isSome, free_iff, offers_iff]
    simp only [comps, List.mem_singleton, forall_eq, Bool.and_eq_true, ih]
    refine ⟨fun h => ⟨?_, h.2⟩, fun h => ⟨by cases op <;> rfl, h.2⟩⟩
    rintro (_ | _)
    rename_i hs
    exact ((aware_iff t h.2).1 hp) hs
  case refine_33 | refine_35 =>
    intro t hp
    rw [resolve, if_neg hp, free_iff]
    simp only [Option.isSome_none, Bool.false_eq_true, false_iff, comps, List.mem_singleton, forall_eq]
    rintro ⟨h1, h2⟩
    cases op <;> try exact hp rfl
    exact hp ((aware_iff t h2).2 fun hs => h1 (by constructor; exact hs))
  case refine_36 => exact ⟨nofun, fun _ => rfl⟩
  case refine_37 =>
    intro t ts ih1 ih2
    simp only [cons_isSome, Bool.and_eq_true, ih1, ih2, List.mem_cons, forall_eq_or_imp]
  case refine_4 =>
    intro t
    rw [resolve, pick_isSome, free_iff, offers_iff]
    exact ⟨fun h => ⟨by cases op <;> first | (intro h'; cases h' <;> contradiction) | exact (nomatch h), nofun⟩, fun h => by cases op <;> first | rfl | exact absurd (.otherInt _ t nofun) h.1⟩
  case refine_6 =>
    rw [resolve, pick_isSome, free_iff, offers_iff]
    exact ⟨fun h => ⟨by cases op <;> first | (intro h'; cases h' <;> contradiction) | exact (nomatch h), nofun⟩, fun h => by cases op <;> first | rfl | exact absurd (.longDouble _ nofun) h.1⟩
  case refine_8 =>
    rw [resolve, pick_isSome, free_iff, offers_iff]
    exact ⟨fun h => ⟨by cases op <;> first | (intro h'; cases h' <;> contradiction) | exact (nomatch h), nofun⟩, fun h => by cases op <;> first | rfl | exact absurd (.view _ nofun nofun) h.1⟩
  case refine_9 =>
    intro n
    rw [resolve, pick_isSome, free_iff, offers_iff]
    exact ⟨fun h => ⟨by cases op <;> first | (intro h'; cases h' <;> contradiction) | exact (nomatch h), nofun⟩, fun h => by cases op <;> first | rfl | exact absurd (.chars _ n nofun nofun) h.1⟩
  case refine_25 =>
    intro o t ih
    rw [resolve, pick_isSome, map_isSome, free_iff, offers_iff]
    simp only [comps, List.mem_singleton, forall_eq, Bool.and_eq_true, ih]
    exact ⟨fun h => ⟨by cases op <;> first | (intro h'; cases h' <;> contradiction) | exact (nomatch h.1), h.2⟩, fun h => ⟨by cases op <;> first | rfl | exact absurd (.viewMap _ o t nofun nofun) h.1, h.2⟩⟩
  case refine_29 =>
    intro t ih
    rw [resolve, pick_isSome, map_isSome, free_iff, offers_iff]
    simp only [comps, List.mem_singleton, forall_eq, Bool.and_eq_true, ih]
    exact ⟨fun h => ⟨by cases op <;> first | (intro h'; cases h' <;> contradiction) | exact (nomatch h.1), h.2⟩, fun h => ⟨by cases op <;> first | rfl | exact absurd (.optional _ t nofun) h.1, h.2⟩⟩
  case refine_31 =>
    intro t ih
    rw [resolve, pick_isSome, map_isSome, free_iff, offers_iff]
    simp only [comps, List.mem_singleton, forall_eq, Bool.and_eq_true, ih]
    exact ⟨fun h => ⟨by cases op <;> first | (intro h'; cases h' <;> contradiction) | exact (nomatch h.1), h.2⟩, fun h => ⟨by cases op <;> first | rfl | exact absurd (.raw _ t nofun nofun) h.1, h.2⟩⟩
  case refine_22 | refine_24 =>
    intro n t ih
    rw [resolve, pick_isSome, map_isSome, free_iff, offers_iff]
    simp only [comps, List.mem_singleton, forall_eq, Bool.and_eq_true, ih]
    exact ⟨fun h => ⟨nofun, h.2⟩, fun h => ⟨by cases op <;> rfl, h.2⟩⟩
  case refine_23 =>
    intro t ih
    rw [resolve, pick_isSome, map_isSome, free_iff, offers_iff]
    simp only [comps, List.mem_singleton, forall_eq, Bool.and_eq_true, ih]
    exact ⟨fun h => ⟨nofun, h.2⟩, fun h => ⟨by cases op <;> rfl, h.2⟩⟩
  all_goals
    intros
    rw [resolve, pick_isSome, free_iff, offers_iff]
    exact ⟨fun _ => ⟨nofun, nofun⟩, fun _ => by cases op <;> rfl⟩

/-- Operations that offer the same choose the same. -/
theorem resolve_congr (op op' : Op) (inc inc' : Header → Bool) (h1 : ∀ f, offers op inc f = offers op' inc' f) (h2 : ∀ t, pointee op t = pointee op' t) (t : CTy) :
    resolve op inc t = resolve op' inc' t := by
  have h3 : ∀ f x, pick op inc f x = pick op' inc' f x := fun f x => by unfold pick; rw [h1]
  refine (resolve.mutual_induct op inc (fun t => resolve op inc t = resolve op' inc' t) (fun ts => resolveAll op inc ts = resolveAll op' inc' ts)
    ?_ ?_ ?_ ?_ ?_ ?_ ?_ ?_ ?_ ?_ ?_ ?_ ?_ ?_ ?_ ?_ ?_ ?_ ?_ ?_ ?_ ?_ ?_ ?_ ?_ ?_ ?_ ?_ ?_ ?_ ?_ ?_ ?_ ?_ ?_ ?_ ?_).1 t
  case refine_21 =>
    intro t n1 n2 n3 ih
    rw [resolve_vec _ _ _ n1 n2 n3, resolve_vec _ _ _ n1 n2 n3, ih, h3]
  all_goals
    intros
    simp_all [resolve, resolveAll]

end Verif.Dispatch
