import Verif.ParseLeftTotal
import Verif.ParseBack
import Verif.Props.Safe

/-!
# C82: what a failed parse leaves in its target
-/

namespace Verif.Props
open Verif.Core Verif.Numeric Verif.EnumConv Verif.Demo

section
variable (env : Env) (host : Host) (G : Nat → Prop) (hG : StreamableClasses env G) (hb : TablesBuilt env host) (d : Nat) (hroom : Roomy host d)
  (t : Ty) (ht : Streamable G t) (j : Json) (hd : j.depth ≤ d) (hp : j.proper = true)

theorem from_along {j : Json} {feed : Feed} (hf : Feed.From j feed) : ∃ tail, feed.events ++ tail = events j := by
  cases feed with
  | document j' => exact ⟨[], by rw [List.append_nil]; exact congrArg events hf⟩
  | broken es => exact hf

include hG hb hroom ht hd hp in
/-- **C82, partial.** When the text is a document of the type or ends early or has a token that is refused, the variable
holds `w` afterwards exactly if `Leaves` says so. In particular there is only one such `w`. -/
theorem C82_left_exact_partial (feed : Feed) (hf : Feed.From j feed) (target : Val) (n : Nat) (w : Val) (h : Leaves env feed.events t target n w) :
    leftBehind env host t feed target n = w := by
  obtain ⟨tail, he⟩ := from_along hf
  rw [leftBehind, if_pos (hroom [] _ (by simp))]
  have hh : height 0 feed.events ≤ d := by
    have h1 := height_prefix feed.events tail 0
    have h2 := height_events 0 [] j
    rw [List.append_nil] at h2
    rw [he, h2] at h1
    simp only [Nat.zero_add, height] at h1
    omega
  have hpe : ProperEvents feed.events := by
    have := events_proper j hp
    rw [← he] at this
    exact this.left
  exact leaves_left env host G hG (selects_of_build env host hb) d hroom h (.parser t) .root id [] none ht hh hpe

include hG hb hroom ht hd hp in
theorem left_read (feed : Feed) (he : feed.events = events j) (target : Val) (n : Nat) (v : Val) (n' : Nat)
    (hm : meaning env j t target n = .yes v n') : leftBehind env host t feed target n = v := by
  have hleft := left_value env host G hG (selects_of_build env host hb) d hroom j t ht target n v n' hm (.parser t) .root id [] none []
    (by simpa using hd) hp
  rw [List.append_nil] at hleft
  rw [leftBehind, if_pos (hroom [] _ (by simp)), he]
  exact hleft

include hG hb hroom ht hd hp in
/-- **C82, partial.** The rest: a text that is rejected leaves something that `Leaves` describes, or it is a complete
document of the type with something behind it; then the variable holds the value of the document. A text that is accepted leaves
the value of the document.

Missing: variants, enumerations with names (the handler of which stays on the stack) and the element types that are not supported; time stamps
out of the range of the clock (undefined); documents that exhaust the handler stack. -/
theorem C82_left_total_partial (hc : Calm env j) (feed : Feed) (hf : Feed.From j feed) (target : Val) (n : Nat) :
    (∃ v n', feed.events = events j ∧ meaning env j t target n = .yes v n' ∧ leftBehind env host t feed target n = v ∧
      parseBool env host t feed target n = match feed with | .document _ => .accepted v | .broken _ => .rejected) ∨
    (Leaves env feed.events t target n (leftBehind env host t feed target n) ∧ parseBool env host t feed target n = .rejected) := by
  obtain ⟨tail, he⟩ := from_along hf
  by_cases hy : feed.events = events j ∧ ∃ v n', meaning env j t target n = .yes v n'
  · obtain ⟨hmore, v, n', hm⟩ := hy
    have hr := hroom [] (.parser t) (by simp)
    have hrun := C42_anywhere_partial env host G hG hb d hroom t ht j hp target n [] (by simpa using hd) none (.parser t) .root id []
    rw [List.append_nil] at hrun
    rw [hm] at hrun
    refine .inl ⟨v, n', hmore, hm, left_read env host G hG hb d hroom t ht j hd hp feed hmore target n v n' hm, ?_⟩
    rw [parseBool, if_pos hr, hmore]
    have : prun env host (start env t target n) (events j) = .go ⟨[], some v, n'⟩ := hrun
    rw [this]
    cases feed <;> rfl
  · right
    rcases total env G hG j hc t target n feed.events ht (.inl ⟨tail, he⟩) with ⟨v, n', more, hm, h⟩ | ⟨w, hL⟩
    · refine absurd ⟨?_, v, n', hm⟩ hy
      rw [h] at he
      have : (events j ++ more ++ tail).length = (events j).length := by rw [he]
      simp only [List.length_append] at this
      have : more = [] := List.eq_nil_of_length_eq_zero (by omega)
      rw [h, this, List.append_nil]
    · have hx := C82_left_exact_partial env host G hG hb d hroom t ht j hd hp feed hf target n w hL
      refine ⟨hx ▸ hL, ?_⟩
      have hub := (C68_parser_partial env host hb t j hc feed hf target n).1
      have hth := C25_no_exception_partial env host d hroom t j hd feed hf target n
      cases feed with
      | document j' =>
        cases hf
        rw [C42_document_partial env host G hG hb d hroom t ht j hd hp target n] at hub ⊢
        cases hm : meaning env j t target n with
        | yes v n' => exact absurd ⟨rfl, v, n', hm⟩ hy
        | no => rfl
        | ub => rw [hm] at hub; exact absurd rfl hub
      | broken es =>
        revert hub hth
        unfold parseBool
        rw [if_pos (hroom [] _ (by simp))]
        cases prun env host (start env t target n) (Feed.broken es).events <;> simp

/-! ## What is kept -/

/-- What a variable still has of its old value. -/
def KeepsOld : Ty → Val → Val → Prop
  | .vec _, old, new => ∃ more, new = .seq (old.elements ++ more)
  | .dict _, old, new => ∃ more, new = .dict (old.entries ++ more)
  | .set _, old, new => ∃ vs, new = .set vs ∧ ∀ v ∈ old.elements, v ∈ vs
  | .map _ _, old, new => ∃ kvs, new = .map kvs ∧ ∀ k ∈ old.entries.map (·.1), k ∈ kvs.map (·.1)
  | .prim .bytes, _, _ => True
  | .prim _, old, new => new = old
  | _, _, _ => True

theorem foldl_keeps (less : Val → Val → Bool) (vs : List Val) : ∀ us : List Val, ∀ v ∈ us, v ∈ vs.foldl (fun s v => setInsert less v s) us := by
  induction vs with
  | nil => intro us v h; exact h
  | cons x vs ih => intro us v h; exact ih _ v (setInsert_keeps h)

theorem entriesM_keys (t : Ty) (ms : List (Str × Json)) : ∀ (kvs kvs' : List (Str × Val)) (n n' : Nat),
    entriesM env t (meaningFields env ms) kvs n = .yes kvs' n' → ∀ k ∈ kvs.map (·.1), k ∈ kvs'.map (·.1) := by
  induction ms with
  | nil =>
    intro kvs kvs' n n' h k hk
    simp only [meaningFields, entriesM, Means.yes.injEq] at h
    rw [← h.1]; exact hk
  | cons p ms ih =>
    obtain ⟨k', j⟩ := p
    intro kvs kvs' n n' h k hk
    rw [meaningFields] at h
    obtain ⟨v, n1, -, h2⟩ := entriesM_cons h
    exact ih _ _ _ _ h2 k ((mapAssign_keys k' v kvs k).2 (.inr hk))

include hG hb hroom ht hd hp in
/-- **C82, partial.** A failed `parse` removes nothing: vectors keep their elements (in front), sets theirs, maps keep their
keys; a truth value, number, string, time stamp or date is not changed. Bytes are not kept. -/
theorem C82_kept_partial (hc : Calm env j) (feed : Feed) (hf : Feed.From j feed) (target : Val) (n : Nat)
    (h : ∀ v n', ¬ (feed.events = events j ∧ meaning env j t target n = .yes v n')) : KeepsOld t target (leftBehind env host t feed target n) := by
  rcases C82_left_total_partial env host G hG hb d hroom t ht j hd hp hc feed hf target n with ⟨v, n', h1, h2, -⟩ | ⟨hL, -⟩
  · exact absurd ⟨h1, h2⟩ (h v n')
  revert hL
  generalize leftBehind env host t feed target n = w
  generalize feed.events = es
  intro hL
  cases hL with
  | ended =>
    cases t <;> simp only [KeepsOld, opened, asVar]
    · rename_i p; cases p <;> trivial
    · exact ⟨[], by simp⟩
    · exact ⟨_, rfl, fun _ h => h⟩
    · exact ⟨_, rfl, fun _ h => h⟩
    · exact ⟨[], by simp⟩
  | leaf p j more _ _ hl => cases p <;> cases j <;> trivial
  | array _ j more _ _ hj =>
    cases t <;> simp only [KeepsOld, asVar] <;> first | (cases hj; done) | skip
    · exact ⟨[], by simp⟩
    · exact ⟨_, rfl, fun _ h => h⟩
    · exact ⟨[], by simp⟩
  | object _ j more _ _ hj =>
    cases t <;> simp only [KeepsOld, asVar] <;> first | (cases hj; done) | skip
    exact ⟨_, rfl, fun _ h => h⟩
  | vec t pre es _ _ vs n' w hm _ => exact ⟨_, by rw [List.append_assoc]⟩
  | set t pre es _ _ vs n' w hm _ =>
    refine ⟨_, rfl, fun v hv => ?_⟩
    split
    · exact foldl_keeps env.less vs _ v hv
    · exact hv
  | dict t pre es _ _ vs n' w hm _ => exact ⟨_, rfl⟩
  | component _ ts pre e es t' _ _ vs n' w hC => cases t <;> trivial
  | number _ ts pre es _ _ vs n' hC => cases t <;> trivial
  | mapEnded o t pre _ _ kvs n' hm => exact ⟨_, rfl, entriesM_keys env t pre _ _ _ _ hm⟩
  | entry o t pre k es _ _ kvs n' w hm _ =>
    exact ⟨_, rfl, fun k' hk => (mapAssign_keys k w kvs k').2 (.inr (entriesM_keys env t pre _ _ _ _ hm k' hk))⟩
  | _ => trivial

include hG hb hroom ht hd hp in
/-- **C82, partial.** Values of a map under keys that the document does not have are not changed, also when `parse` fails. -/
theorem C82_other_keys_partial (o : Bool) (t' : Ty) (hto : t = .map o t') (ms : List (Str × Json)) (hj : j = .obj ms) (hc : Calm env j) (feed : Feed)
    (hf : Feed.From j feed) (target : Val) (n : Nat) (k : Str) (hk : k ∉ ms.map (·.1)) :
    (leftBehind env host t feed target n).entries.lookup k = target.entries.lookup k := by
  subst hto hj
  obtain ⟨tail, he⟩ := from_along hf
  have hT : ∀ p ∈ ms, Total env G p.2 := fun p hp' => total env G hG p.2 (hc.field hp')
  have hx := C82_left_exact_partial env host G hG hb d hroom (.map o t') ht _ hd hp feed hf target n
  have ha : Along feed.events (events (.obj ms)) := .inl ⟨tail, he⟩
  rw [events] at ha
  have hac := ha.cons
  clear ha
  rcases hac with h0 | ⟨es, h0, ha⟩
  · rw [hx (opened env (.map o t') target n) (by rw [h0]; exact .ended _ _ _)]
    rfl
  rcases entries_total env G t' ht ms hT target.entries n es ha.left with
    ⟨kvs, n', more, hm, h1⟩ | ⟨pre, kvs, n', hsub, hm, h1⟩ | ⟨pre, k', es', kvs, n', w, hsub, hk', h1, hm, hL⟩
  · have hlk := entriesM_lookup env t' ms _ _ _ _ hm k hk
    subst h1
    have har := ha.right.cons
    clear ha
    rcases har with h2 | ⟨more, h2, -⟩
    · subst h2
      rw [hx (.map kvs) (by rw [h0, List.append_nil]; exact .mapEnded o t' ms target n kvs n' hm)]
      exact hlk
    · subst h2
      have hfull : more = [] := by
        have := congrArg List.length he
        rw [h0] at this
        simp only [events, List.length_append, List.length_cons, List.length_nil] at this
        exact List.eq_nil_of_length_eq_zero (by omega)
      rw [left_read env host G hG hb d hroom (.map o t') ht _ hd hp feed (by rw [h0, hfull, events]) target n (.map kvs) n'
        (by simp only [meaning, nodeM, hm, Means.map])]
      exact hlk
  · rw [hx (.map kvs) (by rw [h0, h1]; exact .mapEnded o t' pre target n kvs n' hm)]
    exact entriesM_lookup env t' pre _ _ _ _ hm k (fun h => hk (hsub h))
  · rw [hx _ (by rw [h0, h1]; exact .entry o t' pre k' es' target n kvs n' w hm hL)]
    have hne : k ≠ k' := by rintro rfl; exact hk hk'
    exact (lookup_mapAssign_ne k k' w hne kvs).trans (entriesM_lookup env t' pre _ _ _ _ hm k (fun h => hk (hsub h)))

theorem memberAt_name {ms : List Member} {k : Str} {i : Nat} {m : Member} (h : memberAt ms k = some i) (hm : ms[i]? = some m) : m.name = k := by
  unfold memberAt at h
  obtain ⟨hlt, hk, -⟩ := List.findIdx?_eq_some_iff_getElem.1 h
  rw [List.getElem?_eq_getElem hlt, Option.some.injEq] at hm
  subst hm
  exact eq_of_beq hk

include hG hb hroom ht hd hp in
/-- **C82, partial.** Members of an object that the document does not name are not changed, also when `parse` fails. -/
theorem C82_other_members_partial (c : Nat) (htc : t = .cls c) (ms : List (Str × Json)) (hj : j = .obj ms) (hc : Calm env j) (feed : Feed)
    (hf : Feed.From j feed) (vs : List Val) (hvs : vs.length = (env.members c).length) (n : Nat) (i : Nat) (m : Member)
    (hm : (env.members c)[i]? = some m) (hk : m.name ∉ ms.map (·.1)) :
    (leftBehind env host t feed (.obj vs) n).members[i]? = vs[i]? := by
  subst htc hj
  have hfit : ∀ (mbs : List Member) (vs : List Val), vs.length = mbs.length → fitMembers env mbs vs = vs := by
    intro mbs
    induction mbs with
    | nil => intro vs h; cases vs <;> first | rfl | cases h
    | cons m mbs ih =>
      intro vs h
      cases vs with
      | nil => cases h
      | cons v vs => simp only [fitMembers, List.headD_cons, List.tail_cons, ih vs (by simpa using h)]
  have hno : ∀ k ∈ ms.map (·.1), memberAt (env.members c) k ≠ some i := by
    intro k hk' h
    rw [← memberAt_name h hm] at hk'
    exact hk hk'
  obtain ⟨tail, he⟩ := from_along hf
  have hT : ∀ p ∈ ms, Total env G p.2 := fun p hp' => total env G hG p.2 (hc.field hp')
  have hx := C82_left_exact_partial env host G hG hb d hroom (.cls c) ht _ hd hp feed hf (.obj vs) n
  have ha : Along feed.events (events (.obj ms)) := .inl ⟨tail, he⟩
  rw [events] at ha
  have hac := ha.cons
  clear ha
  have hv : fitMembers env (env.members c) (Val.obj vs).members = vs := hfit _ _ hvs
  rcases hac with h0 | ⟨es, h0, ha⟩
  · rw [hx (opened env (.cls c) (.obj vs) n) (by rw [h0]; exact .ended _ _ _)]
    exact congrArg (·[i]?) hv
  rcases members_total env G hG c ht ms hT (fitMembers env (env.members c) (Val.obj vs).members) n es ha.left with
    ⟨us, n', more, hm', h1⟩ | ⟨pre, us, n', hsub, hm', h1⟩ | ⟨pre, k', more, us, n', hsub, h1, hm', hn⟩ |
      ⟨pre, k', es', us, n', i', m', w, hsub, hk', h1, hm', hi', hmi', hL⟩
  · have hlk := membersM_get env _ ms _ _ _ _ hm' i hno
    rw [hv] at hlk
    subst h1
    have har := ha.right.cons
    clear ha
    rcases har with h2 | ⟨more, h2, -⟩
    · subst h2
      rw [hx (.obj us) (by rw [h0, List.append_nil]; exact .clsEnded c ms (.obj vs) n us n' hm')]
      exact hlk
    · subst h2
      have hfull : more = [] := by
        have := congrArg List.length he
        rw [h0] at this
        simp only [events, List.length_append, List.length_cons, List.length_nil] at this
        exact List.eq_nil_of_length_eq_zero (by omega)
      rw [left_read env host G hG hb d hroom (.cls c) ht _ hd hp feed (by rw [h0, hfull, events]) (.obj vs) n (.obj us) n'
        (by simp only [meaning, nodeM, hm', Means.map])]
      exact hlk
  · rw [hx (.obj us) (by rw [h0, h1]; exact .clsEnded c pre (.obj vs) n us n' hm')]
    exact (membersM_get env _ pre _ _ _ _ hm' i (fun k h => hno k (hsub h))).trans (congrArg (·[i]?) hv)
  · rw [hx (.obj us) (by rw [h0, h1]; exact .unknown c pre k' more (.obj vs) n us n' hm' hn)]
    exact (membersM_get env _ pre _ _ _ _ hm' i (fun k h => hno k (hsub h))).trans (congrArg (·[i]?) hv)
  · rw [hx _ (by rw [h0, h1]; exact .member c pre k' es' (.obj vs) n us n' i' m' w hm' hi' hmi' hL)]
    have hne : i' ≠ i := by
      rintro rfl
      exact hno k' hk' hi'
    refine (List.getElem?_set_ne hne).trans ?_
    exact (membersM_get env _ pre _ _ _ _ hm' i (fun k h => hno k (hsub h))).trans (congrArg (·[i]?) hv)

include hG hb hroom ht hd hp in
/-- **C82, partial.** Sets other than those of truth values, numbers and strings are not changed at all when `parse` fails. -/
theorem C82_set_unchanged_partial (t' : Ty) (hts : t = .set t') (ho : oneByOne t' = false) (hc : Calm env j) (feed : Feed) (hf : Feed.From j feed)
    (vs : List Val) (n : Nat) (h : ∀ v n', ¬ (feed.events = events j ∧ meaning env j t (.set vs) n = .yes v n')) :
    leftBehind env host t feed (.set vs) n = .set vs := by
  rcases C82_left_total_partial env host G hG hb d hroom t ht j hd hp hc feed hf (.set vs) n with ⟨v, n', h1, h2, -⟩ | ⟨hL, -⟩
  · exact absurd ⟨h1, h2⟩ (h v n')
  subst hts
  revert hL
  generalize leftBehind env host (.set t') feed (.set vs) n = w
  generalize feed.events = es
  intro hL
  cases hL with
  | ended => rfl
  | array => rfl
  | object _ _ _ _ _ h => cases h
  | set => rw [ho]; rfl
  | component _ _ _ _ _ _ _ _ _ _ _ h => cases h
  | number _ _ _ _ _ _ _ _ h => cases h

end

/-! ## Examples -/

/-- `{"id": 1, "bogus": 2}` -/
def bogusDoc : Json := .obj [(lit "id", .num (.int 1)), (lit "bogus", .num (.int 2))]

theorem bogus_left (target : Val) (n : Nat) : Leaves Demo.env (events bogusDoc) (.cls 1) target n
    (.obj ((fitMembers Demo.env (Demo.env.members 1) target.members).set 0 (.prim (.int 1)))) :=
  .unknown 1 [(lit "id", .num (.int 1))] (lit "bogus") [.num (.int 2), .endObj] target n _ n (by rfl) (by decide +kernel)

theorem bogus_calm : Calm Demo.env bogusDoc := by simp [bogusDoc, Calm, CalmFields]

example : leftBehind Demo.env host (.cls 1) (.document bogusDoc) item7 0 = .obj [.prim (.int 1), .present (.prim (.str (lit "ok"))), .prim (.int 2)] :=
  C82_left_exact_partial Demo.env host streamed streamable_classes tables_built 100 host_roomy (.cls 1) (.inr (.inl rfl)) bogusDoc
    (by decide +kernel) (by decide +kernel) (.document bogusDoc) rfl item7 0 _ (bogus_left item7 0)

theorem bogus_rejected : parseBool Demo.env host (.cls 1) (.document bogusDoc) item7 0 = .rejected := by
  rw [C42_document_partial Demo.env host streamed streamable_classes tables_built 100 host_roomy (.cls 1) (.inr (.inl rfl)) bogusDoc
    (by decide +kernel) (by decide +kernel)]
  rfl

/-- **C82, not the stronger property.** `parse` is not atomic: it returns `false`, and the variable has changed. -/
theorem C82_not_atomic : ¬ ∀ (t : Ty) (j : Json) (target : Val),
    parseBool Demo.env host t (.document j) target 0 = .rejected → leftBehind Demo.env host t (.document j) target 0 = target := by
  intro h
  have h1 := h (.cls 1) bogusDoc item7 bogus_rejected
  rw [C82_left_exact_partial Demo.env host streamed streamable_classes tables_built 100 host_roomy (.cls 1) (.inr (.inl rfl)) bogusDoc
    (by decide +kernel) (by decide +kernel) (.document bogusDoc) rfl item7 0 _ (bogus_left item7 0)] at h1
  simp [fitMembers, item7, Val.members, Env.members, Demo.env, item] at h1

example : Leaves Demo.env (events bogusDoc) (.cls 1) item7 0 (leftBehind Demo.env host (.cls 1) (.document bogusDoc) item7 0) := by
  rcases C82_left_total_partial Demo.env host streamed streamable_classes tables_built 100 host_roomy (.cls 1) (.inr (.inl rfl)) bogusDoc
    (by decide +kernel) (by decide +kernel) bogus_calm (.document bogusDoc) rfl item7 0 with ⟨v, n', -, h, -⟩ | ⟨h, -⟩
  · cases h
  · exact h

/-- The members `note` and `count` stay. -/
example : (leftBehind Demo.env host (.cls 1) (.document bogusDoc) item7 0).members[2]? = some (.prim (.int 2)) :=
  C82_other_members_partial Demo.env host streamed streamable_classes tables_built 100 host_roomy (.cls 1) (.inr (.inl rfl)) bogusDoc
    (by decide +kernel) (by decide +kernel) 1 rfl _ rfl bogus_calm (.document bogusDoc) rfl _ rfl 0 2 _ rfl (by decide +kernel)

/-- `[4, "x"]` -/
def wrongItem : Json := .arr [.num (.int 4), .str (lit "x")]

theorem wrongItem_calm : Calm Demo.env wrongItem := by
  simp only [wrongItem, Calm, CalmAll, and_true, true_and, CalmStr]
  decide +kernel

/-- The elements 1 and 2 stay; the element 4 of the text is appended. -/
example : leftBehind Demo.env host (.vec tInt) (.document wrongItem) (.seq [.prim (.int 1), .prim (.int 2)]) 0 =
    .seq [.prim (.int 1), .prim (.int 2), .prim (.int 4)] :=
  C82_left_exact_partial Demo.env host streamed streamable_classes tables_built 100 host_roomy (.vec tInt) ⟨rfl, rfl⟩ wrongItem
    (by decide +kernel) (by decide +kernel) (.document wrongItem) rfl _ 0 _
    (.vec tInt [.num (.int 4)] [.str (lit "x"), .endArr] _ 0 [.prim (.int 4)] 0 _ (by rfl) (.leaf _ (.str (lit "x")) [.endArr] _ 0 (by rfl)))

example : KeepsOld (.vec tInt) (.seq [.prim (.int 1), .prim (.int 2)])
    (leftBehind Demo.env host (.vec tInt) (.document wrongItem) (.seq [.prim (.int 1), .prim (.int 2)]) 0) :=
  C82_kept_partial Demo.env host streamed streamable_classes tables_built 100 host_roomy (.vec tInt) ⟨rfl, rfl⟩ wrongItem
    (by decide +kernel) (by decide +kernel) wrongItem_calm (.document wrongItem) rfl _ 0 (fun v n' h => by cases h.2)

/-- The text `{"a": 1, "b":` ends early. -/
def abDoc : Json := .obj [(lit "a", .num (.int 1)), (lit "b", .num (.int 2))]

/-- The value of another key stays. -/
example : (leftBehind Demo.env host (.map false tInt) (.broken ((events abDoc).take 4)) (.map [(lit "z", .prim (.int 9))]) 0).entries.lookup (lit "z") =
    some (.prim (.int 9)) :=
  C82_other_keys_partial Demo.env host streamed streamable_classes tables_built 100 host_roomy (.map false tInt) rfl abDoc
    (by decide +kernel) (by decide +kernel) false tInt rfl _ rfl (by simp [abDoc, Calm, CalmFields]) (.broken ((events abDoc).take 4))
    ⟨(events abDoc).drop 4, List.take_append_drop ..⟩ _ 0 (lit "z") (by decide +kernel)

/-- A set of arrays stays as it is. -/
example : leftBehind Demo.env host (.set (.vec tInt)) (.document (.arr [wrongItem])) (.set [.seq []]) 0 = .set [.seq []] :=
  C82_set_unchanged_partial Demo.env host streamed streamable_classes tables_built 100 host_roomy (.set (.vec tInt)) ⟨rfl, rfl, rfl⟩ (.arr [wrongItem])
    (by decide +kernel) (by decide +kernel) (.vec tInt) rfl rfl (by simp only [Calm, CalmAll, and_true]; exact wrongItem_calm) (.document (.arr [wrongItem]))
    rfl _ 0 (fun v n' h => by cases h.2)

/-! ## Pointers and bytes -/

/-- **C82.** The object of a pointer is lost in any case, already with an empty text: the handler replaces it by a new one when it is made. -/
theorem C82_pointer_replaced (env : Env) (host : Host) (t : Ty) (hr : room host [] (.parser (.uptr t)) = true) (old old' : Val) (n : Nat) (feed : Feed) :
    leftBehind env host (.uptr t) feed (.uptr old) n = leftBehind env host (.uptr t) feed (.uptr old') n := by
  simp only [leftBehind, hr, if_true, start, openP]

/-- **C82.** The number behind a pointer is replaced by a new one (`env.ctor`) when the text is empty. -/
theorem C82_pointer_lost (env : Env) (host : Host) (p : Prim) (hr : room host [] (.parser (.uptr (.prim p))) = true) (old : Val) (n : Nat) :
    parseBool env host (.uptr (.prim p)) (.broken []) (.uptr old) n = .rejected ∧
      leftBehind env host (.uptr (.prim p)) (.broken []) (.uptr old) n = .uptr (env.ctor (.prim p)) := by
  constructor
  · simp [parseBool, hr, Feed.events, prun]
  · simp [leftBehind, hr, Feed.events, left, start, openP, PState.target, collapse, Handler.value]

example : leftBehind Demo.env host (.uptr tInt) (.broken []) (.uptr (.prim (.int 5))) 0 = .uptr (.prim .null) :=
  (C82_pointer_lost Demo.env host (.int int32) (host_roomy _ _ (by simp)) (.prim (.int 5)) 0).2

example : leftBehind Demo.env host (.uptr tInt) (.document (.str [])) (.uptr (.prim (.int 5))) 0 =
    leftBehind Demo.env host (.uptr tInt) (.document (.str [])) (.uptr (.prim (.int 6))) 0 :=
  C82_pointer_replaced Demo.env host tInt (host_roomy _ _ (by simp)) (.prim (.int 5)) (.prim (.int 6)) 0 _

/-- **C82.** Bytes are lost when the string is not Base64: the variable holds the bytes in front of the error, and zeros. -/
theorem C82_bytes_lost (env : Env) (host : Host) (hr : room host [] (.parser (.prim .bytes)) = true) (s : Str) (hs : Base64.decode s = none)
    (old : Val) (n : Nat) : parseBool env host (.prim .bytes) (.document (.str s)) old n = .rejected ∧
      leftBehind env host (.prim .bytes) (.document (.str s)) old n = .prim (.bytes (Base64.Spec.wreck s)) := by
  rw [← Base64.decodeOut_none hs]
  constructor
  · simp [parseBool, hr, Feed.events, events, prun, start, openP, pstep, openStep, leafParse, hs]
  · simp [leftBehind, hr, Feed.events, events, left, start, openP, pstep, openStep, leafParse, hs, refusedAt, refusedTop, PState.target, collapse,
      Handler.value]

example : leftBehind Demo.env host (.prim .bytes) (.document (.str (lit "?"))) (.prim (.bytes [1, 2])) 0 = .prim (.bytes []) :=
  (C82_bytes_lost Demo.env host (host_roomy _ _ (by simp)) (lit "?") (by decide +kernel) _ 0).2

example : leftBehind Demo.env host (.prim .bytes) (.document (.str (lit "AQID????BAUG"))) (.prim (.bytes [9])) 0 = .prim (.bytes [1, 2, 3, 0, 0, 0, 0, 0, 0]) :=
  (C82_bytes_lost Demo.env host (host_roomy _ _ (by simp)) (lit "AQID????BAUG") (by decide +kernel) _ 0).2.trans
    (congrArg (fun b => Val.prim (.bytes b)) (by decide +kernel))

/-! ## When the handler stack is full -/

/-- **C82.** When there is no room for the handler of an element, `parse` throws (`bool parse` too) and the vector has a new element at its end,
although nothing of it has been read. -/
theorem C82_full_vector (env : Env) (host : Host) (t : Ty) (hd : direct t = none) (h0 : room host [] (.parser (.vec t)) = true) (h1 : room host [] (.vecItems t) = true)
    (h2 : room host [.vecItems t] (.parser t) = false) (e : Event) (he : isToken t e = true) (es : List Event) (vs : List Val) (n : Nat) :
    parseBool env host (.vec t) (.broken (.startArr :: e :: es)) (.seq vs) n = .threw ∧
      leftBehind env host (.vec t) (.broken (.startArr :: e :: es)) (.seq vs) n = .seq (vs ++ [env.ctor t]) := by
  have hne := isToken_first he
  constructor
  · cases e <;> first | exact absurd rfl hne | simp [parseBool, h0, h1, h2, Feed.events, prun, start, openP, pstep, openStep, replaceTop, hd, he, emplaceP, Val.elements]
  · cases e <;> first | exact absurd rfl hne | simp [leftBehind, h0, h1, h2, Feed.events, left, start, openP, pstep, openStep, replaceTop, hd, he, emplaceP, refusedAt, PState.target, collapse,
      Handler.value, Val.elements]

/-- **C82.** The same for maps: the entry of the key is made, or keeps its value. -/
theorem C82_full_map (env : Env) (host : Host) (o : Bool) (t : Ty) (h0 : room host [] (.parser (.map o t)) = true) (h1 : room host [] (.mapItems (.map o t)) = true)
    (h2 : room host [.mapItems (.map o t)] (.parser t) = false) (k : Str) (es : List Event) (kvs : List (Str × Val)) (ha : KeysAsc kvs) (n : Nat) :
    parseBool env host (.map o t) (.broken (.startObj :: .key k :: es)) (.map kvs) n = .threw ∧
      ∃ kvs', leftBehind env host (.map o t) (.broken (.startObj :: .key k :: es)) (.map kvs) n = .map kvs' ∧
        ∀ k', kvs'.lookup k' = if k' = k then some ((kvs.lookup k).getD (env.ctor t)) else kvs.lookup k' := by
  refine ⟨by simp [parseBool, h0, h1, h2, Feed.events, prun, start, openP, pstep, openStep, replaceTop, emplaceP, Val.entries],
    mapAssign k ((kvs.lookup k).getD (env.ctor t)) kvs, ?_, fun k' => lookup_mapAssign k k' _ kvs ha⟩
  simp [leftBehind, h0, h1, h2, Feed.events, left, start, openP, pstep, openStep, replaceTop, emplaceP, refusedAt, PState.target, collapse, Handler.value, Val.entries]

/-- A host on which a handler of `std::vector<int>` is as large as the stack. -/
def smallHost : Host := { host with size := fun c => match c with | .parser (.vec (.prim _)) => 4096 | _ => 40 }

example (n : Nat) : leftBehind Demo.env smallHost (.vec (.vec tInt)) (.broken [.startArr, .startArr]) (.seq [.seq [.prim (.int 1)]]) n =
    .seq [.seq [.prim (.int 1)], Demo.env.ctor (.vec tInt)] :=
  (C82_full_vector Demo.env smallHost (.vec tInt) rfl rfl rfl rfl .startArr rfl [] _ n).2

example (n : Nat) : ∃ kvs, leftBehind Demo.env smallHost (.map true (.vec tInt)) (.broken [.startObj, .key (lit "b")]) (.map [(lit "a", .seq [])]) n = .map kvs ∧
    kvs.lookup (lit "b") = some (Demo.env.ctor (.vec tInt)) ∧ kvs.lookup (lit "a") = some (.seq []) :=
  let ⟨_, kvs, h, hl⟩ := C82_full_map Demo.env smallHost true (.vec tInt) rfl rfl rfl (lit "b") [] [(lit "a", .seq [])] (List.pairwise_singleton _ _) n
  ⟨kvs, h, hl _, hl _⟩

end Verif.Props
