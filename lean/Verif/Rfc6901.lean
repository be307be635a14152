import Verif.Deserialize

/-!
# JSON pointers as in RFC 6901

The first part is the specification, written after the RFC and not using the model of `rapidjson::Pointer` in `Path`.
-/

namespace Verif.Rfc6901
open Verif.Core

/-! ## Specification -/

/-- A reference token (RFC 6901, section 3 and 4): the text, and the name that it stands for: `~0` is `~`, `~1` is `/`. -/
inductive Token : Str → Str → Prop
  | nil : Token [] []
  | char {c : UInt8} {s t : Str} : c ≠ 47 → c ≠ 126 → Token s t → Token (c :: s) (c :: t)
  | tilde {s t : Str} : Token s t → Token (126 :: 48 :: s) (126 :: t)
  | slash {s t : Str} : Token s t → Token (126 :: 49 :: s) (47 :: t)

/-- A JSON pointer (section 3): any number of tokens, each after a `/`. -/
inductive Pointer : Str → List Str → Prop
  | nil : Pointer [] []
  | cons {s t p : Str} {ts : List Str} : Token s t → Pointer p ts → Pointer (47 :: (s ++ p)) (t :: ts)

/-- A decimal digit. -/
def Digit (c : UInt8) : Prop := 48 ≤ c.toNat ∧ c.toNat ≤ 57

/-- An array index (section 4): digits without leading zeros, and their value. -/
inductive Index : Str → Nat → Prop
  | one {c : UInt8} : Digit c → Index [c] (c.toNat - 48)
  | more {s : Str} {n : Nat} {c : UInt8} : Index s n → n ≠ 0 → Digit c → Index (s ++ [c]) (n * 10 + (c.toNat - 48))

/-- Evaluation (section 4): the node that names lead to, with the positions of the children on the way. Of members with the same name the
first counts, where the RFC leaves the choice. -/
inductive At : Json → List Str → List Nat → Json → Prop
  | here (j : Json) : At j [] [] j
  | member {pre post : List (Str × Json)} {t : Str} {j k : Json} {ts : List Str} {q : List Nat} :
      (∀ p ∈ pre, p.1 ≠ t) → At j ts q k → At (.obj (pre ++ (t, j) :: post)) (t :: ts) (pre.length :: q) k
  | element {js : List Json} {t : Str} {n : Nat} {j k : Json} {ts : List Str} {q : List Nat} :
      js[n]? = some j → Index t n → At j ts q k → At (.arr js) (t :: ts) (n :: q) k

/-- No array in the document has more elements than this. -/
def Small (root : Json) : Prop := ∀ ts q js, At root ts q (.arr js) → js.length ≤ 429496729

mutual
/-- The greatest number of elements of an array in the document. -/
def widest : Json → Nat
  | .arr js => max js.length (widestAll js)
  | .obj ms => widestFields ms
  | _ => 0

/-- `widest` for elements. -/
def widestAll : List Json → Nat
  | [] => 0
  | j :: js => max (widest j) (widestAll js)

/-- `widest` for members. -/
def widestFields : List (Str × Json) → Nat
  | [] => 0
  | (_, j) :: ms => max (widest j) (widestFields ms)
end

theorem widestAll_mem {js : List Json} {n : Nat} {j : Json} (h : js[n]? = some j) : widest j ≤ widestAll js := by
  induction js generalizing n with
  | nil => simp at h
  | cons k js ih =>
    simp only [widestAll]
    cases n with
    | zero => simp at h; subst h; exact Nat.le_max_left _ _
    | succ n => exact Nat.le_trans (ih h) (Nat.le_max_right _ _)

theorem widestFields_mem (t : Str) (j : Json) (post : List (Str × Json)) : ∀ pre : List (Str × Json), widest j ≤ widestFields (pre ++ (t, j) :: post)
  | [] => Nat.le_max_left _ _
  | (_, _) :: pre => Nat.le_trans (widestFields_mem t j post pre) (Nat.le_max_right _ _)

/-- A document without long arrays. -/
theorem small_of_widest {root : Json} (h : widest root ≤ 429496729) : Small root := by
  have key : ∀ {j ts q k}, At j ts q k → widest k ≤ widest j := by
    intro j ts q k hk
    induction hk with
    | here => exact Nat.le_refl _
    | member _ _ ih => exact Nat.le_trans ih (widestFields_mem _ _ _ _)
    | element hj _ _ ih => exact Nat.le_trans ih (Nat.le_trans (widestAll_mem hj) (Nat.le_max_right _ _))
  intro ts q js hk
  have := key hk
  simp only [widest] at this
  omega

/-! ## Tokens -/

theorem cons1_eq {c : UInt8} {o : Option (List Str)} {ts : List Str} (h : o.map (scanTokens.cons1 c) = some ts)
    (hne : ∀ l, o = some l → l ≠ []) : ∃ t ts', o = some (t :: ts') ∧ ts = (c :: t) :: ts' := by
  cases o with
  | none => cases h
  | some l =>
    cases l with
    | nil => exact (hne [] rfl rfl).elim
    | cons t ts' => cases h; exact ⟨t, ts', rfl, rfl⟩

theorem scan_sound : ∀ (n : Nat) (s : Str), s.length ≤ n → ∀ ts, scanTokens s = some ts →
    ∃ t ts' a b, ts = t :: ts' ∧ s = a ++ b ∧ Token a t ∧ Pointer b ts' := by
  intro n
  induction n with
  | zero =>
    intro s hs ts h
    have : s = [] := by cases s <;> simp_all
    subst this
    cases h
    exact ⟨[], [], [], [], rfl, rfl, .nil, .nil⟩
  | succ n ih =>
    intro s hs ts h
    have ne : ∀ s : Str, s.length ≤ n → ∀ l, scanTokens s = some l → l ≠ [] := by
      intro s hs l hl he
      obtain ⟨t, ts', _, _, h1, _⟩ := ih s hs l hl
      rw [he] at h1
      cases h1
    cases s with
    | nil =>
      cases h
      exact ⟨[], [], [], [], rfl, rfl, .nil, .nil⟩
    | cons c rest =>
      simp only [List.length_cons] at hs
      rw [scanTokens.eq_def] at h
      simp only at h
      split at h
      · rename_i hc
        subst hc
        cases hr : scanTokens rest with
        | none => rw [hr] at h; cases h
        | some ts1 =>
          rw [hr] at h
          cases h
          obtain ⟨t, ts', a, b, rfl, rfl, h1, h2⟩ := ih rest (by omega) ts1 hr
          exact ⟨[], t :: ts', [], _, rfl, rfl, .nil, .cons h1 h2⟩
      · rename_i h47
        split at h
        · rename_i hc
          subst hc
          cases rest with
          | nil => cases h
          | cons d rest =>
            simp only [List.length_cons] at hs
            simp only at h
            split at h
            · rename_i hd
              subst hd
              obtain ⟨t, ts', h1, rfl⟩ := cons1_eq h (ne rest (by omega))
              obtain ⟨t1, ts1, a, b, h2, rfl, h3, h4⟩ := ih rest (by omega) _ h1
              cases h2
              exact ⟨_, _, 126 :: 48 :: a, b, rfl, rfl, .tilde h3, h4⟩
            · split at h
              · rename_i hd
                subst hd
                obtain ⟨t, ts', h1, rfl⟩ := cons1_eq h (ne rest (by omega))
                obtain ⟨t1, ts1, a, b, h2, rfl, h3, h4⟩ := ih rest (by omega) _ h1
                cases h2
                exact ⟨_, _, 126 :: 49 :: a, b, rfl, rfl, .slash h3, h4⟩
              · cases h
        · rename_i h126
          obtain ⟨t, ts', h1, rfl⟩ := cons1_eq h (ne rest (by omega))
          obtain ⟨t1, ts1, a, b, h2, rfl, h3, h4⟩ := ih rest (by omega) _ h1
          cases h2
          exact ⟨_, _, c :: a, b, rfl, rfl, .char h47 h126 h3, h4⟩

theorem scan_token {a t b : Str} {u : Str} {us : List Str} (ha : Token a t) (hb : scanTokens b = some (u :: us)) :
    scanTokens (a ++ b) = some ((t ++ u) :: us) := by
  induction ha with
  | nil => exact hb
  | char h1 h2 h ih =>
    rw [List.cons_append, scanTokens.eq_def]
    simp only [if_neg h1, if_neg h2, ih]
    rfl
  | tilde h ih =>
    rw [List.cons_append, List.cons_append, scanTokens.eq_def]
    simp only [ih]
    rfl
  | slash h ih =>
    rw [List.cons_append, List.cons_append, scanTokens.eq_def]
    simp only [ih]
    rfl

theorem scan_pointer {p : Str} {ts : List Str} (h : Pointer p ts) : scanTokens p = some ([] :: ts) := by
  induction h with
  | nil => rfl
  | cons h1 h2 ih =>
    rw [scanTokens_slash, scan_token h1 ih]
    simp

/-- The model of `rapidjson::Pointer` takes a text apart as the RFC says. -/
theorem tokens_iff (env : Env) (p : Str) (hp : p.head? ≠ some 35) (ts : List Str) : pointerTokens env p = some ts ↔ Pointer p ts := by
  constructor
  · intro h
    cases p with
    | nil => cases h; exact .nil
    | cons c rest =>
      simp only [pointerTokens] at h
      split at h
      · rename_i hc
        subst hc
        obtain ⟨t, ts', a, b, rfl, rfl, h1, h2⟩ := scan_sound _ rest (Nat.le_refl _) ts h
        exact .cons h1 h2
      · split at h
        · rename_i hc
          subst hc
          exact (hp rfl).elim
        · cases h
  · intro h
    cases h with
    | nil => rfl
    | cons h1 h2 =>
      simp only [pointerTokens, if_true]
      rw [scan_token h1 (scan_pointer h2)]
      simp

theorem Token.unique {a t t' : Str} (h : Token a t) (h' : Token a t') : t = t' := by
  have h1 := scan_token h (b := []) (u := []) (us := []) rfl
  rw [scan_token h' (b := []) (u := []) (us := []) rfl] at h1
  simpa using h1.symm

/-! ## Indices -/

theorem Index.decimal {t : Str} {n : Nat} (h : Index t n) : t = decimal n := by
  induction h with
  | one hc =>
    rename_i c
    have hd := hc
    unfold Digit at hd
    rw [decimal_lt _ (by omega)]
    congr 1
    apply UInt8.toNat_inj.1
    rw [digitChar_toNat _ (by omega)]
    omega
  | more h hn hc ih =>
    rename_i s n c
    have hd := hc
    unfold Digit at hd
    rw [decimal_ge _ (by omega), ih]
    have h1 : (n * 10 + (c.toNat - 48)) / 10 = n := by omega
    have h2 : digitChar (n * 10 + (c.toNat - 48)) = c := by
      have : digitChar (n * 10 + (c.toNat - 48)) = digitChar ((n * 10 + (c.toNat - 48)) % 10) := by simp [digitChar]
      rw [this]
      apply UInt8.toNat_inj.1
      rw [digitChar_toNat _ (by omega)]
      omega
    rw [h1, h2]

theorem Index.value {t : Str} {n : Nat} (h : Index t n) : n = t.foldl (fun m c => m * 10 + (c.toNat - 48)) 0 := by
  induction h with
  | one hc => simp
  | more h hn hc ih => rw [List.foldl_append, ← ih]; rfl

theorem index_complete {t : Str} {n : Nat} (h : Index t n) (hn : n < 2 ^ 32 - 1) : tokenIndex t = some n := by
  rw [h.decimal]
  exact tokenIndex_decimal n hn

theorem isDigit_iff (c : UInt8) : isDigit c = true ↔ Digit c := by
  simp [isDigit, Digit]

theorem Index.nonzero {t : Str} {n : Nat} (h : Index t n) (hz : t.head? ≠ some 48) : n ≠ 0 := by
  induction h with
  | one hc =>
    rename_i c
    unfold Digit at hc
    intro h0
    apply hz
    have : c = 48 := by
      apply UInt8.toNat_inj.1
      have h48 : (48 : UInt8).toNat = 48 := rfl
      omega
    rw [this]
    rfl
  | more h hn hc ih => omega

/-- Induction from the end. -/
theorem loop_index (s : Str) : ∀ c, (∀ d ∈ s ++ [c], Digit d) → (s ≠ [] → s.head? ≠ some 48) → ∀ n, indexLoop 0 (s ++ [c]) = some n →
    n < 429496729 → Index (s ++ [c]) n := by
  generalize hl : s.length = l
  induction l generalizing s with
  | zero =>
    intro c hd _ n h hn
    have : s = [] := by cases s <;> simp_all
    subst this
    have hc : Digit c := hd c (by simp)
    have h' := hc
    unfold Digit at h'
    simp only [List.nil_append, indexLoop] at h
    split at h
    · cases h
    · cases h
      have := Index.one hc
      have h2 : (0 * 10 + (c.toNat - 48)) % 2 ^ 32 = c.toNat - 48 := by omega
      rw [h2]
      exact this
  | succ l ih =>
    intro c hd hz n h hn
    have hne : s ≠ [] := by intro he; subst he; cases hl
    obtain ⟨s', b, rfl⟩ : ∃ s' b, s = s' ++ [b] := ⟨s.dropLast, s.getLast hne, (List.dropLast_concat_getLast hne).symm⟩
    have hc : Digit c := hd c (by simp)
    have h' := hc
    unfold Digit at h'
    rw [indexLoop_append] at h
    cases hk : indexLoop 0 (s' ++ [b]) with
    | none => rw [hk] at h; cases h
    | some k =>
      rw [hk] at h
      simp only [Option.bind_some, indexLoop] at h
      split at h
      · cases h
      · rename_i hge
        injection h with h
        have hk2 : k < 429496729 := by omega
        have hi := ih s' (by simpa using hl) b (fun d hd' => hd d (by simp at hd' ⊢; rcases hd' with h | h <;> simp [h])) (by
          intro hs' he
          apply hz hne
          cases s' with
          | nil => exact (hs' rfl).elim
          | cons x s' => exact he) k hk hk2
        have : n = k * 10 + (c.toNat - 48) := by omega
        rw [this]
        exact .more hi (hi.nonzero (hz hne)) hc

theorem index_sound {t : Str} {n : Nat} (h : tokenIndex t = some n) (hn : n < 429496729) : Index t n := by
  unfold tokenIndex at h
  split at h
  · cases h
  · rename_i hne
    split at h
    · cases h
    · rename_i hall
      split at h
      · cases h
      · rename_i hz
        have hd : ∀ d ∈ t, Digit d := by
          intro d hd
          rw [← isDigit_iff]
          simp only [Bool.not_eq_false, List.all_eq_true] at hall
          exact hall d hd
        split at h
        · cases h
        · rename_i m hm
          split at h
          · cases h
          · cases h
            have ht : t = t.dropLast ++ [t.getLast hne] := (List.dropLast_concat_getLast hne).symm
            rw [ht]
            refine loop_index _ _ (by rwa [← ht]) ?_ n (by rwa [← ht]) hn
            intro h1 h2
            apply hz
            cases t with
            | nil => exact (hne rfl).elim
            | cons x t =>
              cases t with
              | nil => exact (h1 rfl).elim
              | cons y t => exact ⟨by simp, h2⟩

/-! ## Evaluation -/

theorem find_split {t : Str} {ms : List (Str × Json)} {i : Nat} {j : Json} (h : findMember t ms = some (i, j)) :
    ∃ pre post, ms = pre ++ (t, j) :: post ∧ pre.length = i ∧ ∀ p ∈ pre, p.1 ≠ t := by
  induction ms generalizing i with
  | nil => cases h
  | cons p ms ih =>
    obtain ⟨k, a⟩ := p
    simp only [findMember] at h
    split at h
    · rename_i hk
      cases h
      subst hk
      exact ⟨[], ms, rfl, rfl, by simp⟩
    · rename_i hk
      split at h
      · cases h
      · rename_i i' b hb
        cases h
        obtain ⟨pre, post, rfl, rfl, h1⟩ := ih hb
        refine ⟨(k, a) :: pre, post, rfl, rfl, ?_⟩
        intro p hp
        rcases List.mem_cons.1 hp with rfl | hp
        · exact hk
        · exact h1 p hp

theorem find_at (t : Str) (j : Json) (post : List (Str × Json)) : ∀ pre : List (Str × Json), (∀ p ∈ pre, p.1 ≠ t) →
    findMember t (pre ++ (t, j) :: post) = some (pre.length, j) := by
  intro pre
  induction pre with
  | nil => intro _; simp [findMember]
  | cons p pre ih =>
    intro h
    obtain ⟨k, a⟩ := p
    have hk : k ≠ t := h (k, a) (by simp)
    simp [findMember, hk, ih (fun p hp => h p (by simp [hp]))]

theorem Small.member {pre post : List (Str × Json)} {t : Str} {j : Json} (h : Small (.obj (pre ++ (t, j) :: post))) (ht : ∀ p ∈ pre, p.1 ≠ t) : Small j :=
  fun ts q js hk => h (t :: ts) (pre.length :: q) js (.member ht hk)

theorem Small.element {js : List Json} {j : Json} {n : Nat} (h : Small (.arr js)) (hn : js[n]? = some j) (t : Str) (ht : Index t n) : Small j :=
  fun ts q js' hk => h (t :: ts) (n :: q) js' (.element hn ht hk)

/-- `rapidjson::Pointer::Get` finds the node that the RFC says. -/
theorem get_iff (ts : List Str) : ∀ (root : Json), Small root → ∀ q, pointerGet root ts = some q ↔ ∃ k, At root ts q k := by
  induction ts with
  | nil =>
    intro root _ q
    constructor
    · intro h
      simp only [pointerGet] at h
      cases h
      exact ⟨root, .here root⟩
    · rintro ⟨k, h⟩
      cases h
      simp only [pointerGet]
  | cons t ts ih =>
    intro root hs q
    constructor
    · intro h
      cases root with
      | obj ms =>
        simp only [pointerGet] at h
        split at h
        · cases h
        · rename_i i j hf
          obtain ⟨pre, post, rfl, rfl, hpre⟩ := find_split hf
          cases hg : pointerGet j ts with
          | none => rw [hg] at h; cases h
          | some q' =>
            rw [hg] at h
            cases h
            obtain ⟨k, hk⟩ := (ih j (hs.member hpre) q').1 hg
            exact ⟨k, .member hpre hk⟩
      | arr js =>
        simp only [pointerGet] at h
        split at h
        · cases h
        · rename_i n hn
          split at h
          · cases h
          · rename_i j hj
            have hlen := hs [] [] js (.here _)
            have hlt : n < js.length := by
              have := List.getElem?_eq_some_iff.1 hj
              exact this.1
            have hi := index_sound hn (by omega)
            cases hg : pointerGet j ts with
            | none => rw [hg] at h; cases h
            | some q' =>
              rw [hg] at h
              cases h
              obtain ⟨k, hk⟩ := (ih j (hs.element hj t hi) q').1 hg
              exact ⟨k, .element hj hi hk⟩
      | null => simp [pointerGet] at h
      | bool b => simp [pointerGet] at h
      | num n => simp [pointerGet] at h
      | str s => simp [pointerGet] at h
    · rintro ⟨k, h⟩
      cases h with
      | member hpre hk =>
        simp only [pointerGet, find_at _ _ _ _ hpre, (ih _ (hs.member hpre) _).2 ⟨k, hk⟩]
        rfl
      | element hj hi hk =>
        rename_i js n j q
        have hlen := hs [] [] js (.here _)
        have hlt : n < js.length := (List.getElem?_eq_some_iff.1 hj).1
        simp only [pointerGet, index_complete hi (by omega), hj, (ih _ (hs.element hj t hi) _).2 ⟨k, hk⟩]
        rfl

end Verif.Rfc6901
