import Verif.ParseLemmas
import Verif.ParseSpec
import Verif.Props.Numeric

/-!
# The streaming parser computes the meaning

For streamable types and documents within the limits of the stack, `pval` is `meaning`.
-/

namespace Verif.Core
open Verif.Numeric Verif.EnumConv Verif.PerfectHash

/-! ## Leaves -/

theorem classify_valid (x : JsonNum) (h : x.Valid) : (classify x).Valid := by
  cases x with
  | int v =>
    simp only [JsonNum.Valid] at h
    simp only [classify]
    split
    · split
      · rename_i h0 h1
        refine ⟨?_, h1⟩
        simpa [u32, IntTy.min] using h0
      · rename_i h0 h1
        refine ⟨?_, h.2⟩
        simpa [u64, IntTy.min] using h0
    · split
      · rename_i h0 h1
        refine ⟨h1, ?_⟩
        simp [i32, IntTy.max, Width.bits]; omega
      · rename_i h0 h1
        refine ⟨h.1, ?_⟩
        simp [i64, IntTy.max, Width.bits]; omega
  | dbl d => exact h

theorem ofEvent_classify (x : JsonNum) : JsonNum.ofEvent (classify x) = x := by
  cases x with
  | int v => simp only [classify]; split <;> split <;> rfl
  | dbl d => rfl

theorem eventInt_classify (v : Int) : Props.eventInt (classify (.int v)) = some v := by
  simp only [classify]; split <;> split <;> rfl

/-- The choice of the number event does not matter: `Int(0)` for the text `-0` is read like `Uint(0)`. -/
theorem parseNumber_classify (T : NumTy) (e : NumEvent) (he : e.Valid) (hd : ∀ d, e ≠ .double d) :
    parseNumber T e = parseNumber T (classify (.ofEvent e)) := by
  have hv : ∃ v, Props.eventInt e = some v ∧ JsonNum.ofEvent e = .int v := by
    cases e <;> first | exact ⟨_, rfl, rfl⟩ | exact absurd rfl (hd _)
  obtain ⟨v, hv, ho⟩ := hv
  have hc : (classify (.ofEvent e)).Valid := by
    rw [ho]
    refine classify_valid _ ?_
    cases e <;> first | exact absurd rfl (hd _) | skip
    all_goals
      cases hv
      simp only [NumEvent.Valid, IntTy.InRange, JsonNum.Valid] at he ⊢
      simp [i32, u32, i64, u64, IntTy.min, IntTy.max, Width.bits] at he ⊢
      omega
  have hv' : Props.eventInt (classify (.ofEvent e)) = some v := by rw [ho]; exact eventInt_classify v
  cases T with
  | int t =>
    cases h1 : parseNumber (.int t) e with
    | some r => exact ((Props.C13_parse_int_exact t _ hc r).2 (by
        obtain ⟨w, hw, hr⟩ := (Props.C13_parse_int_exact t e he r).1 h1
        exact ⟨w, by rw [hv', ← hv, hw], hr⟩)).symm
    | none =>
      cases h2 : parseNumber (.int t) (classify (.ofEvent e)) with
      | none => rfl
      | some r =>
        have := (Props.C13_parse_int_exact t e he r).2 (by
          obtain ⟨w, hw, hr⟩ := (Props.C13_parse_int_exact t _ hc r).1 h2
          exact ⟨w, by rw [hv, ← hv', hw], hr⟩)
        rw [this] at h1; cases h1
  | flt t =>
    have val : ∀ (e : NumEvent) r, Props.eventInt e = some v → parseNumber (.flt t) e = some r → r = .flt (Flt.castInt t v) := by
      intro e r h hr
      cases e <;> simp only [Props.eventInt, Option.some.injEq, reduceCtorEq] at h <;> subst h <;>
        (simp only [parseNumber, parseInt] at hr; split at hr <;> simp_all)
    have i1 := Props.isAssignableFltInt_iff t e he v hv
    have i2 := Props.isAssignableFltInt_iff t _ hc v hv'
    cases h1 : parseNumber (.flt t) e with
    | some r =>
      obtain ⟨r', h2⟩ := i2.2 (i1.1 ⟨r, h1⟩)
      rw [h2, val _ _ hv h1, val _ _ hv' h2]
    | none =>
      cases h2 : parseNumber (.flt t) (classify (.ofEvent e)) with
      | none => rfl
      | some r =>
        obtain ⟨r', h3⟩ := i1.2 (i2.1 ⟨r, h2⟩)
        rw [h3] at h1; cases h1

theorem numParse_int (t : IntTy) (x : JsonNum) (h : (Json.num x).proper = true) :
    numParse (.int t) x = match desInt t (.num x) with | .ub => .ub | .reject _ => .fail | .ok pv => .ok pv := by
  cases x with
  | dbl d => rfl
  | int v =>
    have hv : (JsonNum.int v).Valid := by simpa [Json.proper, JsonNum.Valid] using h
    have := Props.C16_readers_agree_int_partial t _ (classify_valid _ hv)
    rw [ofEvent_classify] at this
    simp only [numParse, this, deserializeNumber, desInt]
    cases deserializeInt t (.int v) with
    | ok w => rfl
    | error e => cases e <;> rfl

theorem numParse_flt (t : FltTy) (x : JsonNum) (h : (Json.num x).proper = true) :
    numParse (.flt t) x = match floatMeaning t x with | some f => .ok (.flt f) | none => .fail := by
  cases x with
  | dbl d =>
    cases t with
    | double => rfl
    | float =>
      have h4 : isAssignableFltFlt .float .double d = withinRange .float d := rfl
      simp only [numParse, classify, parseNumber, parseDouble, floatMeaning, h4]
      cases withinRange .float d <;> rfl
  | int v =>
    have hv : (JsonNum.int v).Valid := by simpa [Json.proper, JsonNum.Valid] using h
    have hi := Props.isAssignableFltInt_iff t _ (classify_valid _ hv) v (eventInt_classify v)
    simp only [numParse, floatMeaning]
    by_cases hb : v.natAbs < 2 ^ t.digits
    · obtain ⟨r, hr⟩ := hi.2 hb
      have : r = .flt (Flt.castInt t v) := by
        have h := eventInt_classify v
        revert hr h
        generalize classify (.int v) = e
        intro hr h
        cases e <;> simp only [Props.eventInt, Option.some.injEq, reduceCtorEq] at h <;> subst h <;>
          (simp only [parseNumber, parseInt] at hr; split at hr <;> simp_all)
      rw [hr, this, castInt_exact t v hb, if_pos hb]
      rfl
    · rw [if_neg hb]
      cases hp : parseNumber (.flt t) (classify (.int v)) with
      | none => rfl
      | some r => exact absurd (hi.1 ⟨r, hp⟩) hb

/-- A leaf handler computes the meaning of the leaf. -/
theorem leafParse_meaning (env : Env) (p : Prim) (j : Json) (h : j.proper = true) : leafParse env p (first j) = leafMeaning env p j := by
  cases p with
  | null => cases j <;> rfl
  | bool => cases j <;> rfl
  | int t => cases j <;> first | rfl | exact numParse_int t _ h
  | enumInt t => cases j <;> first | rfl | exact numParse_int t _ h
  | flt t => cases j <;> first | rfl | exact numParse_flt t _ h
  | str => cases j <;> rfl
  | bytes =>
    cases j with
    | str s =>
      have h1 : leafMeaning env .bytes (.str s) = match desPrim env .bytes (.str s) with | .ub => .ub | .reject _ => .fail | .ok pv => .ok pv := rfl
      rw [h1, desPrim_bytes]
      have h2 : leafParse env .bytes (first (.str s)) = match Base64.decode s with | some bs => .ok (.bytes bs) | none => .fail := rfl
      rw [h2]
      cases Base64.decode s <;> rfl
    | _ => rfl
  | time =>
    cases j with
    | str s =>
      have h1 : leafMeaning env .time (.str s) = match desPrim env .time (.str s) with | .ub => .ub | .reject _ => .fail | .ok pv => .ok pv := rfl
      rw [h1, desPrim_time]
      have h2 : leafParse env .time (first (.str s)) = match DateTime.parseDatetime env.clk s with
        | .ok t => .ok (.time t) | .rejected => .fail | .overflow => .ub := rfl
      rw [h2]
      cases DateTime.parseDatetime env.clk s <;> rfl
    | _ => rfl
  | date =>
    cases j with
    | str s =>
      have h1 : leafMeaning env .date (.str s) = match desPrim env .date (.str s) with | .ub => .ub | .reject _ => .fail | .ok pv => .ok pv := rfl
      rw [h1, desPrim_date]
      have h2 : leafParse env .date (first (.str s)) = match DateTime.readDate env.clk s with
        | .ok y m d => .ok (.date y m d) | .rejected => .fail | .overflow => .ub := rfl
      rw [h2]
      cases DateTime.readDate env.clk s <;> rfl
    | _ => rfl
  | enumStr table =>
    cases j with
    | str s =>
      have h1 : leafMeaning env (.enumStr table) (.str s) =
        match desPrim env (.enumStr table) (.str s) with | .ub => .ub | .reject _ => .fail | .ok pv => .ok pv := rfl
      rw [h1, desPrim_enumStr]
      have h2 : leafParse env (.enumStr table) (first (.str s)) = match enumValue table s with | some v => .ok (.int v) | none => .fail := rfl
      rw [h2]
      cases enumValue table s <;> rfl
    | _ => rfl

/-! ## Equations of `meaning` -/

theorem meaningItems_eq (env : Env) (js : List Json) : meaningItems env js = js.map (meaning env) := by
  induction js with
  | nil => simp [meaningItems]
  | cons j js ih => simp [meaningItems, ih]

theorem meaningFields_eq (env : Env) (ms : List (Str × Json)) : meaningFields env ms = ms.map fun p => (p.1, meaning env p.2) := by
  induction ms with
  | nil => simp [meaningFields]
  | cons p ms ih => cases p; simp [meaningFields, ih]

theorem meaning_node (env : Env) (j : Json) : meaning env j = nodeM env j (meaningItems env j.items) (meaningFields env j.fields) := by
  cases j <;> simp [meaning, Json.items, Json.fields, meaningItems, meaningFields]

theorem meaning_prim (env : Env) (j : Json) (p : Prim) (target : Val) (n : Nat) : meaning env j (.prim p) target n =
    match leafMeaning env p j with
    | .ub => .ub
    | .fail => .no
    | .ok pv => .yes (.prim pv) n := by
  rw [meaning_node, nodeM]
  cases leafMeaning env p j <;> rfl

/-- The first token tells whether a document can be read as an element. -/
theorem nodeM_token (env : Env) (j : Json) (items : List MFn) (fields : List (Str × MFn)) : ∀ (t : Ty) (target : Val) (n : Nat),
    isToken t (first j) = false → t.numeric = false → nodeM env j items fields t target n = .no
  | .prim p, target, n, h, hn => by
    rw [nodeM]
    have : leafMeaning env p j = .fail := by
      cases p <;> first | (cases hn; done) | (cases j <;> first | rfl | cases h)
    rw [this]
  | .vec t, target, n, h, hn => by cases j <;> first | (cases h; done) | simp only [nodeM]
  | .arr k t, target, n, h, hn => by cases j <;> first | (cases h; done) | simp only [nodeM]
  | .set t, target, n, h, hn => by cases j <;> first | (cases h; done) | simp only [nodeM]
  | .map o t, target, n, h, hn => by cases j <;> first | (cases h; done) | simp only [nodeM]
  | .dict t, target, n, h, hn => by cases j <;> first | (cases h; done) | simp only [nodeM]
  | .tuple ts, target, n, h, hn => by cases j <;> first | (cases h; done) | simp only [nodeM]
  | .variant ts, target, n, h, hn => by rw [nodeM]
  | .cls c, target, n, h, hn => by cases j <;> first | (cases h; done) | simp only [nodeM]
  | .uptr t, target, n, h, hn => by rw [nodeM, nodeM_token env j items fields t (env.ctor t) n h hn]; rfl
  | .sptr t, target, n, h, hn => by rw [nodeM, nodeM_token env j items fields t (env.ctor t) (n + 1) h hn]; rfl

theorem direct_eq (t : Ty) (p : Prim) (h : direct t = some p) : t = .prim p := by
  cases t with
  | prim q => cases q <;> simp_all [direct]
  | _ => cases h

/-! ## Agreement -/

/-- The result of a value agrees with its meaning; no exception, and no handler left behind. -/
def PAgree (w : Val → Val) : PartRes Val → Means Val → Prop
  | .ok v n, .yes v' n' => w v = v' ∧ n = n'
  | .fail, .no => True
  | .ub, .ub => True
  | _, _ => False

/-- The same for the parts of a value. -/
def LAgree {α β : Type} (w : α → β) : LRes α → Means β → Prop
  | .ok v n, .yes v' n' => w v = v' ∧ n = n'
  | .fail, .no => True
  | .ub, .ub => True
  | _, _ => False

theorem PAgree.whole {α β : Type} (mk : α → Val) (w : Val → Val) (w' : α → β) (g : β → Val) (hw : ∀ a, w (mk a) = g (w' a)) {r : LRes α}
    {m : Means β} (h : LAgree w' r m) : PAgree w (r.whole mk) (m.map g) := by
  cases r <;> cases m <;> simp only [LAgree] at h
  · obtain ⟨rfl, rfl⟩ := h
    exact ⟨hw _, rfl⟩
  · trivial
  · trivial

section
variable (env : Env) (host : Host) (G : Nat → Prop) (hG : StreamableClasses env G) (hsel : Selects env host) (d : Nat) (hroom : Roomy host d)

/-- The parser computes the meaning of `j`, for all types. -/
def Computes (j : Json) : Prop :=
  ∀ (t : Ty) (target : Val) (n : Nat) (K : List HClass), Streamable G t → K.length + j.depth ≤ d → j.proper = true →
    PAgree (openP env t target n).2.1 (pval env host j K (openP env t target n).1 (openP env t target n).2.2) (meaning env j t target n)

include hroom in
theorem agree_child {α β : Type} (j : Json) (hj : Computes env host G d j) (t : Ty) (ht : Streamable G t) (target : Val) (n : Nat)
    (K : List HClass) (c : HClass) (hK : K.length + j.depth ≤ d) (hp : j.proper = true) (outer : Val → Val) (w : α → β)
    (k : Val → Nat → LRes α) (k' : Val → Nat → Means β) (hk : ∀ v n', LAgree w (k (outer v) n') (k' v n')) :
    LAgree w (withChild env host K c t target n outer (pval env host j) k) ((meaning env j t target n).bind k') := by
  have h := hj t target n K ht hK hp
  unfold withChild
  rw [if_pos (hroom K c (by omega))]
  generalize openP env t target n = o at h ⊢
  obtain ⟨hd, wr, n'⟩ := o
  simp only at h ⊢
  generalize pval env host j K hd n' = r at h ⊢
  generalize meaning env j t target n = m at h ⊢
  cases r <;> cases m <;> simp only [PAgree] at h
  · obtain ⟨rfl, rfl⟩ := h
    exact hk _ _
  · trivial
  · trivial

include hroom in
theorem agree_vec (t : Ty) (he : t.element = true) (ht : Streamable G t) (js : List Json) (hj : ∀ j ∈ js, Computes env host G d j)
    (K : List HClass) (hK : K.length + Json.depthAll js ≤ d) (hp : Json.properAll js = true) (vs : List Val) (n : Nat) :
    LAgree id (loopVec env host K t (pitems env host js) vs n) ((manyM env t (meaningItems env js) n).map (vs ++ ·)) := by
  induction js generalizing vs n with
  | nil => simp [pitems, loopVec, meaningItems, manyM, Means.map, LAgree]
  | cons j js ih =>
    simp only [Json.depthAll] at hK
    simp only [Json.properAll, Bool.and_eq_true] at hp
    have hm1 : j.depth ≤ Nat.max j.depth (Json.depthAll js) := Nat.le_max_left ..
    have hm2 : Json.depthAll js ≤ Nat.max j.depth (Json.depthAll js) := Nat.le_max_right ..
    have ih' := ih (fun j' h' => hj j' (by simp [h'])) (by omega) hp.2
    have hassoc : ∀ (v : Val) (n' : Nat), (manyM env t (meaningItems env js) n').map ((vs ++ [v]) ++ ·) =
        ((manyM env t (meaningItems env js) n').map (v :: ·)).map (vs ++ ·) := by
      intro v n'
      cases manyM env t (meaningItems env js) n' <;> simp [Means.map]
    rw [pitems, meaningItems, loopVec, manyM]
    cases hd : direct t with
    | some p =>
      have htp : t = .prim p := direct_eq t p hd
      subst htp
      simp only [leafParse_meaning env p j hp.1, meaning_prim]
      cases leafMeaning env p j with
      | ub => trivial
      | fail => trivial
      | ok pv =>
        simp only [Means.bind]
        rw [← hassoc]
        exact ih' _ n
    | none =>
      simp only
      by_cases hi : isToken t (first j) = true
      · simp only [if_pos hi]
        have := agree_child env host G d hroom j (hj j (by simp)) t ht (env.ctor t) n K (.parser t) (by omega) hp.1 id id
          (fun v n' => loopVec env host K t (pitems env host js) (vs ++ [v]) n')
          (fun v n' => ((manyM env t (meaningItems env js) n').map (v :: ·)).map (vs ++ ·))
          (fun v n' => by rw [← hassoc]; exact ih' (vs ++ [v]) n')
        revert this
        cases meaning env j t (env.ctor t) n <;> exact fun h => h
      · simp only [if_neg hi]
        have hnum : t.numeric = false := by
          simpa [Ty.element, hd] using he
        rw [meaning_node, nodeM_token env j _ _ t _ n (by simpa using hi) hnum]
        trivial

include hroom in
theorem agree_set (t : Ty) (he : t.element = true) (ht : Streamable G t) (js : List Json) (hj : ∀ j ∈ js, Computes env host G d j)
    (K : List HClass) (hK : K.length + Json.depthAll js ≤ d) (hp : Json.properAll js = true) (storage vs : List Val) (n : Nat)
    (hst : (direct t).isSome = true → storage = []) :
    LAgree id (loopSet env host K t (pitems env host js) storage vs n)
      ((manyM env t (meaningItems env js) n).map fun us => (storage ++ us).foldl (fun s v => setInsert env.less v s) vs) := by
  induction js generalizing storage vs n with
  | nil => simp [pitems, loopSet, meaningItems, manyM, Means.map, LAgree]
  | cons j js ih =>
    simp only [Json.depthAll] at hK
    simp only [Json.properAll, Bool.and_eq_true] at hp
    have hm1 : j.depth ≤ Nat.max j.depth (Json.depthAll js) := Nat.le_max_left ..
    have hm2 : Json.depthAll js ≤ Nat.max j.depth (Json.depthAll js) := Nat.le_max_right ..
    have ih' := ih (fun j' h' => hj j' (by simp [h'])) (by omega) hp.2
    rw [pitems, meaningItems, loopSet, manyM]
    cases hd : direct t with
    | some p =>
      have htp : t = .prim p := direct_eq t p hd
      subst htp
      have hs : storage = [] := hst (by simp [hd])
      subst hs
      simp only [leafParse_meaning env p j hp.1, meaning_prim]
      cases leafMeaning env p j with
      | ub => trivial
      | fail => trivial
      | ok pv =>
        simp only [Means.bind]
        have := ih' [] (setInsert env.less (.prim pv) vs) n (fun _ => rfl)
        revert this
        cases manyM env (.prim p) (meaningItems env js) n <;> simp [Means.map]
    | none =>
      simp only
      by_cases hi : isToken t (first j) = true
      · simp only [if_pos hi]
        have := agree_child env host G d hroom j (hj j (by simp)) t ht (env.ctor t) n K (.parser t) (by omega) hp.1 id id
          (fun v n' => loopSet env host K t (pitems env host js) (storage ++ [v]) vs n')
          (fun v n' => ((manyM env t (meaningItems env js) n').map (v :: ·)).map
            fun us => (storage ++ us).foldl (fun s v => setInsert env.less v s) vs)
          (fun v n' => by
            have := ih' (storage ++ [v]) vs n' (fun h => by simp [hd] at h)
            revert this
            cases manyM env t (meaningItems env js) n' <;> simp [Means.map])
        revert this
        cases meaning env j t (env.ctor t) n <;> exact fun h => h
      · simp only [if_neg hi]
        have hnum : t.numeric = false := by
          simpa [Ty.element, hd] using he
        rw [meaning_node, nodeM_token env j _ _ t _ n (by simpa using hi) hnum]
        trivial

include hroom in
theorem agree_fix (C : Ty) (js : List Json) (hj : ∀ j ∈ js, Computes env host G d j) (K : List HClass)
    (hK : K.length + 1 + Json.depthAll js ≤ d) (hp : Json.properAll js = true) (pre ts : List Ty) (hts : StreamableAll G ts)
    (done targets : List Val) (hl : done.length = pre.length) (n : Nat) :
    LAgree id (loopFix env host K C (pre ++ ts) (pitems env host js) pre.length (done ++ fit env ts targets) n)
      ((eachM env (meaningItems env js) ts targets n).map (done ++ ·)) := by
  induction js generalizing pre ts done targets n with
  | nil =>
    cases ts with
    | nil => simp [pitems, loopFix, meaningItems, eachM, Means.map, LAgree, fit]
    | cons t ts => simp [pitems, loopFix, meaningItems, eachM, Means.map, LAgree]
  | cons j js ih =>
    simp only [Json.depthAll] at hK
    simp only [Json.properAll, Bool.and_eq_true] at hp
    have hm1 : j.depth ≤ Nat.max j.depth (Json.depthAll js) := Nat.le_max_left ..
    have hm2 : Json.depthAll js ≤ Nat.max j.depth (Json.depthAll js) := Nat.le_max_right ..
    rw [pitems, meaningItems, loopFix.eq_def]
    cases ts with
    | nil => simp [eachM, Means.map, LAgree]
    | cons t ts =>
      have h1 : (pre ++ t :: ts)[pre.length]? = some t := by simp
      have h2 : (done ++ fit env (t :: ts) targets).getD pre.length (env.ctor t) = targets.headD (env.ctor t) := by
        simp [fit, ← hl]
      have h3 : ∀ v, (done ++ fit env (t :: ts) targets).set pre.length v = (done ++ [v]) ++ fit env ts targets.tail := by
        intro v
        simp [fit, ← hl]
      simp only [h1, h2, h3, if_pos (hroom K (.fixed C (pre.length + 1)) (by omega)), eachM]
      have := agree_child env host G d hroom j (hj j (by simp)) t hts.1 (targets.headD (env.ctor t)) n (.fixed C (pre.length + 1) :: K)
        (.parser t) (by simp only [List.length_cons]; omega) hp.1 id id
        (fun v n' => loopFix env host K C (pre ++ t :: ts) (pitems env host js) (pre.length + 1)
          ((done ++ [v]) ++ fit env ts targets.tail) n')
        (fun v n' => ((eachM env (meaningItems env js) ts targets.tail n').map (v :: ·)).map (done ++ ·))
        (fun v n' => by
          have := ih (fun j' h' => hj j' (by simp [h'])) (by omega) hp.2 (pre ++ [t]) ts hts.2 (done ++ [v]) targets.tail
            (by simp [hl]) n'
          simp only [List.append_assoc, List.singleton_append, List.length_append, List.length_singleton] at this ⊢
          revert this
          cases eachM env (meaningItems env js) ts targets.tail n' <;> simp [Means.map])
      revert this
      cases meaning env j t (targets.headD (env.ctor t)) n <;> exact fun h => h

include hroom in
theorem agree_map (t : Ty) (ht : Streamable G t) (ms : List (Str × Json)) (hj : ∀ p ∈ ms, Computes env host G d p.2) (K : List HClass)
    (hK : K.length + Json.depthFields ms ≤ d) (hp : Json.properFields ms = true) (kvs : List (Str × Val)) (n : Nat) :
    LAgree id (loopMap env host K t (pfields env host ms) kvs n) (entriesM env t (meaningFields env ms) kvs n) := by
  induction ms generalizing kvs n with
  | nil => simp [pfields, loopMap, meaningFields, entriesM, LAgree]
  | cons p ms ih =>
    obtain ⟨k, j⟩ := p
    simp only [Json.depthFields] at hK
    simp only [Json.properFields, Bool.and_eq_true] at hp
    have hm1 : j.depth ≤ Nat.max j.depth (Json.depthFields ms) := Nat.le_max_left ..
    have hm2 : Json.depthFields ms ≤ Nat.max j.depth (Json.depthFields ms) := Nat.le_max_right ..
    rw [pfields, meaningFields, loopMap, entriesM]
    exact agree_child env host G d hroom j (hj (k, j) (by simp)) t ht _ n K (.parser t) (by omega) hp.1 id id _ _
      (fun v n' => ih (fun p' h' => hj p' (by simp [h'])) (by omega) hp.2 _ n')

include hroom hG hsel in
theorem agree_obj (c : Nat) (hc : G c) (ms : List (Str × Json)) (hj : ∀ p ∈ ms, Computes env host G d p.2) (K : List HClass)
    (hK : K.length + Json.depthFields ms ≤ d) (hp : Json.properFields ms = true) (vs : List Val) (n : Nat) :
    LAgree id (loopObj env host K c (pfields env host ms) vs n) (membersM env (env.members c) (meaningFields env ms) vs n) := by
  induction ms generalizing vs n with
  | nil => simp [pfields, loopObj, meaningFields, membersM, LAgree]
  | cons p ms ih =>
    obtain ⟨k, j⟩ := p
    simp only [Json.depthFields] at hK
    simp only [Json.properFields, Bool.and_eq_true] at hp
    have hm1 : j.depth ≤ Nat.max j.depth (Json.depthFields ms) := Nat.le_max_left ..
    have hm2 : Json.depthFields ms ≤ Nat.max j.depth (Json.depthFields ms) := Nat.le_max_right ..
    have ih' := ih (fun p' h' => hj p' (by simp [h'])) (by omega) hp.2
    rw [pfields, meaningFields, loopObj, membersM, hsel c (hG c hc).1 k]
    cases hm : memberAt (env.members c) k with
    | none => trivial
    | some i =>
      have hlt : i < (env.members c).length := by
        unfold memberAt at hm
        exact (List.findIdx?_eq_some_iff_getElem.1 hm).1
      have hget : (env.members c)[i]? = some (env.members c)[i] := List.getElem?_eq_getElem hlt
      have hst : Streamable G (env.members c)[i].ty := (hG c hc).2 _ (List.getElem_mem hlt)
      simp only [hget]
      by_cases ho : (env.members c)[i].kind = .optional
      · simp only [if_pos ho]
        exact agree_child env host G d hroom j (hj (k, j) (by simp)) _ hst _ n K (.optional _) (by omega) hp.1 _ id _ _
          (fun v n' => ih' _ n')
      · simp only [if_neg ho]
        exact agree_child env host G d hroom j (hj (k, j) (by simp)) _ hst _ n K (.parser _) (by omega) hp.1 id id _ _
          (fun v n' => ih' _ n')

theorem streamableAll_replicate (k : Nat) (t : Ty) (h : Streamable G t) : StreamableAll G (List.replicate k t) := by
  induction k with
  | zero => trivial
  | succ k ih => exact ⟨h, ih⟩

theorem dictEntry_pairOf (p : Str × Val) : dictEntry (pairOf p) = p := rfl

include hroom hG hsel in
theorem computes_node (j : Json) (hi : ∀ j' ∈ j.items, Computes env host G d j') (hf : ∀ p ∈ j.fields, Computes env host G d p.2) :
    ∀ (t : Ty) (target : Val) (n : Nat) (K : List HClass), Streamable G t → K.length + j.depth ≤ d → j.proper = true →
      PAgree (openP env t target n).2.1 (pval env host j K (openP env t target n).1 (openP env t target n).2.2)
        (meaning env j t target n)
  | .prim p, target, n, K, ht, hK, hp => by
    have hst : p.stays = false := ht
    have h1 : pval env host j K (.leaf p target) n = match leafMeaning env p j with
        | .ub => .ub | .fail => .fail | .ok pv => .ok (.prim pv) n := by
      rw [← leafParse_meaning env p j hp]
      cases j with
      | arr js =>
        have : leafParse env p (first (.arr js)) = .fail := by cases p <;> rfl
        rw [this]; simp [pval, arrayFn]
      | obj ms =>
        have : leafParse env p (first (.obj ms)) = .fail := by cases p <;> rfl
        rw [this]; simp [pval, objectFn]
      | _ =>
        simp only [pval, scalar, hst, first, Bool.false_eq_true, if_false]
        split <;> simp_all
    rw [openP]
    simp only [h1, meaning_prim]
    cases leafMeaning env p j <;> simp [PAgree]
  | .vec t, target, n, K, ht, hK, hp => by
    rw [meaning_node, openP]
    cases j with
    | arr js =>
      simp only [pval, arrayFn, nodeM, Json.items]
      simp only [Json.depth] at hK
      simp only [Json.proper] at hp
      rw [if_pos (hroom K _ (by omega))]
      have := PAgree.whole .seq id id .seq (fun _ => rfl)
        (agree_vec env host G d hroom t ht.1 ht.2 js hi (.vecItems t :: K) (by simp only [List.length_cons]; omega) hp target.elements n)
      revert this
      cases manyM env t (meaningItems env js) n <;> exact fun h => h
    | obj ms => simp [pval, objectFn, nodeM, PAgree]
    | _ => simp [pval, scalar, nodeM, PAgree]
  | .arr k t, target, n, K, ht, hK, hp => by
    rw [meaning_node, openP]
    cases j with
    | arr js =>
      simp only [pval, arrayFn, nodeM, Json.items]
      simp only [Json.depth] at hK
      simp only [Json.proper] at hp
      rw [if_pos (hroom K _ (by omega))]
      have := PAgree.whole .tup id id .tup (fun _ => rfl)
        (agree_fix env host G d hroom (.arr k t) js hi K (by omega) hp [] (List.replicate k t) (streamableAll_replicate G k t ht) []
          target.components rfl n)
      simp only [List.nil_append, List.length_nil] at this
      revert this
      cases eachM env (meaningItems env js) (List.replicate k t) target.components n <;> exact fun h => h
    | obj ms => simp [pval, objectFn, nodeM, PAgree]
    | _ => simp [pval, scalar, nodeM, PAgree]
  | .set t, target, n, K, ht, hK, hp => by
    rw [meaning_node, openP]
    cases j with
    | arr js =>
      simp only [pval, arrayFn, nodeM, Json.items]
      simp only [Json.depth] at hK
      simp only [Json.proper] at hp
      rw [if_pos (hroom K _ (by omega))]
      have := PAgree.whole .set id id .set (fun _ => rfl)
        (agree_set env host G d hroom t ht.1 ht.2 js hi (.setItems t :: K) (by simp only [List.length_cons]; omega) hp [] target.elements n
          (fun _ => rfl))
      revert this
      cases manyM env t (meaningItems env js) n <;> exact fun h => h
    | obj ms => simp [pval, objectFn, nodeM, PAgree]
    | _ => simp [pval, scalar, nodeM, PAgree]
  | .map o t, target, n, K, ht, hK, hp => by
    rw [meaning_node, openP]
    cases j with
    | obj ms =>
      simp only [pval, objectFn, nodeM, Json.fields]
      simp only [Json.depth] at hK
      simp only [Json.proper] at hp
      rw [if_pos (hroom K _ (by omega))]
      exact PAgree.whole .map id id .map (fun _ => rfl)
        (agree_map env host G d hroom t ht ms hf (.mapItems (.map o t) :: K) (by simp only [List.length_cons]; omega) hp target.entries n)
    | arr ms => simp [pval, arrayFn, nodeM, PAgree]
    | _ => simp [pval, scalar, nodeM, PAgree]
  | .dict t, target, n, K, ht, hK, hp => by
    rw [meaning_node, openP]
    cases j with
    | arr js =>
      simp only [pval, arrayFn, nodeM, Json.items]
      simp only [Json.depth] at hK
      simp only [Json.proper] at hp
      rw [if_pos (hroom K _ (by omega))]
      have := PAgree.whole .seq (fun v => .dict (v.elements.map dictEntry)) id (fun vs : List Val => .dict (vs.map dictEntry)) (fun _ => rfl)
        (agree_vec env host G d hroom (.tuple [.prim .str, t]) rfl ⟨rfl, ht, trivial⟩ js hi (.vecItems (.tuple [.prim .str, t]) :: K)
          (by simp only [List.length_cons]; omega) hp (target.entries.map pairOf) n)
      revert this
      have hd : ∀ vs : List Val, (target.entries.map pairOf ++ vs).map dictEntry = target.entries ++ vs.map dictEntry := by
        intro vs
        rw [List.map_append, List.map_map]
        congr 1
        exact List.map_id _
      cases manyM env (.tuple [.prim .str, t]) (meaningItems env js) n <;> simp only [Means.map, hd] <;> exact fun h => h
    | obj ms => simp [pval, objectFn, nodeM, PAgree]
    | _ => simp [pval, scalar, nodeM, PAgree]
  | .tuple ts, target, n, K, ht, hK, hp => by
    rw [meaning_node, openP]
    cases j with
    | arr js =>
      simp only [pval, arrayFn, nodeM, Json.items]
      simp only [Json.depth] at hK
      simp only [Json.proper] at hp
      rw [if_pos (hroom K _ (by omega))]
      have := PAgree.whole .tup id id .tup (fun _ => rfl)
        (agree_fix env host G d hroom (.tuple ts) js hi K (by omega) hp [] ts ht [] target.components rfl n)
      simp only [List.nil_append, List.length_nil] at this
      revert this
      cases eachM env (meaningItems env js) ts target.components n <;> exact fun h => h
    | obj ms => simp [pval, objectFn, nodeM, PAgree]
    | _ => simp [pval, scalar, nodeM, PAgree]
  | .variant ts, target, n, K, ht, hK, hp => ht.elim
  | .cls c, target, n, K, ht, hK, hp => by
    rw [meaning_node, openP, if_neg (hG c ht).1]
    cases j with
    | obj ms =>
      simp only [pval, objectFn, nodeM, Json.fields]
      simp only [Json.depth] at hK
      simp only [Json.proper] at hp
      rw [if_pos (hroom K _ (by omega))]
      exact PAgree.whole .obj id id .obj (fun _ => rfl)
        (agree_obj env host G hG hsel d hroom c ht ms hf (.object c :: K) (by simp only [List.length_cons]; omega) hp _ n)
    | arr ms => simp [pval, arrayFn, nodeM, PAgree]
    | _ => simp [pval, scalar, nodeM, PAgree]
  | .uptr t, target, n, K, ht, hK, hp => by
    have h := computes_node j hi hf t (env.ctor t) n K ht hK hp
    rw [meaning_node] at h ⊢
    rw [openP, nodeM]
    generalize openP env t (env.ctor t) n = o at h ⊢
    obtain ⟨hd, w, n'⟩ := o
    simp only at h ⊢
    generalize pval env host j K hd n' = r at h ⊢
    generalize nodeM env j (meaningItems env j.items) (meaningFields env j.fields) t (env.ctor t) n = m at h ⊢
    cases r <;> cases m <;> simp only [PAgree] at h
    · obtain ⟨rfl, rfl⟩ := h
      exact ⟨rfl, rfl⟩
    · trivial
    · trivial
  | .sptr t, target, n, K, ht, hK, hp => by
    have h := computes_node j hi hf t (env.ctor t) (n + 1) K ht hK hp
    rw [meaning_node] at h ⊢
    rw [openP, nodeM]
    generalize openP env t (env.ctor t) (n + 1) = o at h ⊢
    obtain ⟨hd, w, n'⟩ := o
    simp only at h ⊢
    generalize pval env host j K hd n' = r at h ⊢
    generalize nodeM env j (meaningItems env j.items) (meaningFields env j.fields) t (env.ctor t) (n + 1) = m at h ⊢
    cases r <;> cases m <;> simp only [PAgree] at h
    · obtain ⟨rfl, rfl⟩ := h
      exact ⟨rfl, rfl⟩
    · trivial
    · trivial

include hroom hG hsel in
/-- The parser computes the meaning of every document. -/
theorem computes : ∀ j : Json, Computes env host G d j := by
  intro j
  induction hs : sizeOf j using Nat.strongRecOn generalizing j with
  | _ s ih =>
    subst hs
    refine computes_node env host G hG hsel d hroom j (fun j' h' => ?_) (fun p h' => ?_)
    · refine ih _ ?_ j' rfl
      cases j <;> simp only [Json.items, List.not_mem_nil] at h'
      rename_i js
      have := List.sizeOf_lt_of_mem h'
      simp only [Json.arr.sizeOf_spec]; omega
    · refine ih _ ?_ p.2 rfl
      cases j <;> simp only [Json.fields, List.not_mem_nil] at h'
      rename_i ms
      have := List.sizeOf_lt_of_mem h'
      obtain ⟨k, v⟩ := p
      simp only [Json.obj.sizeOf_spec, Prod.mk.sizeOf_spec] at this ⊢
      omega

end

end Verif.Core
