import Verif.ParseFacts

/-!
# Where the streaming parser refuses a document

After every event that the handlers accept, there is a way to go on: some document begins with the events delivered so far and is accepted.
-/

namespace Verif.Core
open Verif.Numeric Verif.EnumConv

/-! ## Specification -/

/-- What an event contributes to the number of open arrays and objects. -/
def Event.opens : Event → Int
  | .startArr | .startObj => 1
  | .endArr | .endObj => -1
  | _ => 0

/-- Number of arrays and objects that are open after some events. -/
def pending (es : List Event) : Int := (es.map Event.opens).sum

/-- A document for a type without components. -/
def leastLeaf : Prim → Json
  | .null => .null
  | .bool => .bool false
  | .int _ | .flt _ | .enumInt _ => .num (.int 0)
  | .time => .str (lit "1970-01-01T00:00:00Z")
  | .date => .str (lit "1970-01-01")
  | _ => .str []

mutual
/-- A small document of a type: containers and classes without contents. -/
def least : Ty → Json
  | .prim p => leastLeaf p
  | .vec _ | .set _ | .dict _ => .arr []
  | .arr k t => .arr (List.replicate k (least t))
  | .map _ _ | .cls _ => .obj []
  | .tuple ts => .arr (leastAll ts)
  | .variant _ => .null
  | .uptr t => least t
  | .sptr t => least t

/-- `least` for lists. -/
def leastAll : List Ty → List Json
  | [] => []
  | t :: ts => least t :: leastAll ts
end

mutual
/-- Types without enumerations with names and variants, with classes from `G`, all components of which have documents of depth `H` or less. -/
def Viable (G : Nat → Prop) (H : Nat) : Ty → Prop
  | .prim p => p.stays = false
  | .vec t => 1 ≤ H ∧ Viable G H t
  | .arr k t => (least (.arr k t)).depth ≤ H ∧ Viable G H t
  | .set t => 1 ≤ H ∧ Viable G H t
  | .map _ t => 1 ≤ H ∧ Viable G H t
  | .dict t => (least (.tuple [.prim .str, t])).depth ≤ H ∧ Viable G H t
  | .tuple ts => (least (.tuple ts)).depth ≤ H ∧ ViableAll G H ts
  | .variant _ => False
  | .cls c => 1 ≤ H ∧ G c
  | .uptr t => Viable G H t
  | .sptr t => Viable G H t

/-- `Viable` for lists. -/
def ViableAll (G : Nat → Prop) (H : Nat) : List Ty → Prop
  | [] => True
  | t :: ts => Viable G H t ∧ ViableAll G H ts
end

/-- The classes of `G` have members, all of them viable. -/
def ViableClasses (env : Env) (G : Nat → Prop) (H : Nat) : Prop :=
  ∀ c, G c → env.members c ≠ [] ∧ ∀ m ∈ env.members c, Viable G H m.ty

/-! ## Small documents are accepted -/

theorem viableAll_iff {G : Nat → Prop} {H : Nat} {ts : List Ty} : ViableAll G H ts ↔ ∀ t ∈ ts, Viable G H t := by
  induction ts with
  | nil => simp [ViableAll]
  | cons t ts ih => simp [ViableAll, ih]

theorem leastAll_eq (ts : List Ty) : leastAll ts = ts.map least := by
  induction ts with
  | nil => rfl
  | cons t ts ih => simp [leastAll, ih]

theorem leastAll_replicate (k : Nat) (t : Ty) : leastAll (List.replicate k t) = List.replicate k (least t) := by
  rw [leastAll_eq, List.map_replicate]

theorem depthAll_le {js : List Json} {b : Nat} : Json.depthAll js ≤ b ↔ ∀ j ∈ js, j.depth ≤ b := by
  induction js with
  | nil => simp [Json.depthAll]
  | cons j js ih =>
    simp only [Json.depthAll, List.mem_cons, forall_eq_or_imp, ← ih]
    exact Nat.max_le

theorem viable_depth {G : Nat → Prop} {H : Nat} : ∀ {t : Ty}, Viable G H t → (least t).depth ≤ H
  | .prim p, _ => by cases p <;> simp [least, leastLeaf, Json.depth]
  | .vec _, h => h.1
  | .set _, h => h.1
  | .map _ _, h => h.1
  | .cls _, h => h.1
  | .arr _ _, h => h.1
  | .tuple _, h => h.1
  | .dict _, h => by
    have := h.1
    simp only [least, Json.depth] at this ⊢
    simp only [Json.depthAll]
    omega
  | .uptr t, h => viable_depth (t := t) h
  | .sptr t, h => viable_depth (t := t) h

theorem epoch_time (clk : Nat) : DateTime.makeDatetime clk 1970 1 1 0 0 0 = some 0 := by
  have : DateTime.timegm ⟨1970, 1, 1, 0, 0, 0⟩ = 0 := by decide +kernel
  simp [DateTime.makeDatetime, this, DateTime.fromTimeT, DateTime.InRep]

theorem least_time (clk : Nat) : DateTime.parseDatetime clk (lit "1970-01-01T00:00:00Z") = .ok 0 := by
  have h1 : fromDigits (DateTime.sub (lit "1970-01-01T00:00:00Z") 0 4) = some 1970 := by decide +kernel
  have h2 : fromDigits (DateTime.sub (lit "1970-01-01T00:00:00Z") 5 7) = some 1 := by decide +kernel
  have h3 : fromDigits (DateTime.sub (lit "1970-01-01T00:00:00Z") 8 10) = some 1 := by decide +kernel
  have h4 : fromDigits (DateTime.sub (lit "1970-01-01T00:00:00Z") 11 13) = some 0 := by decide +kernel
  have h5 : fromDigits (DateTime.sub (lit "1970-01-01T00:00:00Z") 14 16) = some 0 := by decide +kernel
  have h6 : fromDigits (DateTime.sub (lit "1970-01-01T00:00:00Z") 17 19) = some 0 := by decide +kernel
  have h7 : (!DateTime.isValidDate 1970 1 1) = false := by decide +kernel
  rw [DateTime.parseDatetime, if_neg (by decide), if_neg (by decide), h1, h2, h3, h4, h5, h6]
  simp only [h7, epoch_time]
  rfl

theorem readDate_ok {clk : Nat} {s : Str} {t : Int} (h : DateTime.parseDate clk s = .ok t) : ∃ y m d, DateTime.readDate clk s = .ok y m d := by
  rw [DateTime.readDate, h]
  exact ⟨_, _, _, rfl⟩

theorem leaf_time {env : Env} {s : Str} {t : Int} (h : DateTime.parseDatetime env.clk s = .ok t) : leafParse env .time (first (.str s)) = .ok (.time t) := by
  simp only [first, leafParse, h]

theorem leaf_date {env : Env} {s : Str} {y : Int} {m d : Nat} (h : DateTime.readDate env.clk s = .ok y m d) :
    leafParse env .date (first (.str s)) = .ok (.date y m d) := by
  simp only [first, leafParse, h]

theorem least_date (clk : Nat) : ∃ y m d, DateTime.readDate clk (lit "1970-01-01") = .ok y m d := by
  have h1 : fromDigits (DateTime.sub (lit "1970-01-01") 0 4) = some 1970 := by decide +kernel
  have h2 : fromDigits (DateTime.sub (lit "1970-01-01") 5 7) = some 1 := by decide +kernel
  have h3 : fromDigits (DateTime.sub (lit "1970-01-01") 8 10) = some 1 := by decide +kernel
  have h5 : DateTime.parseDate clk (lit "1970-01-01") = .ok 0 := by
    rw [DateTime.parseDate, if_neg (by decide), if_neg (by decide), h1, h2, h3]
    simp only [epoch_time]
    rfl
  exact readDate_ok h5

theorem least_number (T : NumTy) : ∃ v, parseNumber T (classify (.int 0)) = some v := by
  have h : (parseNumber T (classify (.int 0))).isSome = true := by
    cases T with
    | int t => obtain ⟨w, s⟩ := t; cases w <;> cases s <;> decide +kernel
    | flt t => cases t <;> decide +kernel
  exact Option.isSome_iff_exists.1 h

theorem leastLeaf_ok (env : Env) (p : Prim) (h : p.stays = false) : ∃ pv, leafParse env p (first (leastLeaf p)) = .ok pv := by
  cases p with
  | null => exact ⟨_, rfl⟩
  | bool => exact ⟨_, rfl⟩
  | int t =>
    obtain ⟨v, h⟩ := least_number (.int t)
    exact ⟨ofNumVal v, by simp only [leastLeaf, first, leafParse, numParse, h]⟩
  | flt t =>
    obtain ⟨v, h⟩ := least_number (.flt t)
    exact ⟨ofNumVal v, by simp only [leastLeaf, first, leafParse, numParse, h]⟩
  | str => exact ⟨_, rfl⟩
  | bytes => exact ⟨_, rfl⟩
  | time =>
    rw [leastLeaf]
    exact ⟨_, leaf_time (least_time env.clk)⟩
  | date =>
    obtain ⟨y, m, d, h⟩ := least_date env.clk
    rw [leastLeaf]
    exact ⟨_, leaf_date h⟩
  | enumInt t =>
    obtain ⟨v, h⟩ := least_number (.int t)
    exact ⟨ofNumVal v, by simp only [leastLeaf, first, leafParse, numParse, h]⟩
  | enumStr t => cases h

theorem leastLeaf_events (p : Prim) : events (leastLeaf p) = [first (leastLeaf p)] := by
  cases p <;> rfl

section
variable {env : Env} {host : Host} {G : Nat → Prop} {H d : Nat} (hroom : Roomy host d)

include hroom in
/-- Small documents for the components from position `i` on. -/
theorem loopFix_least (C : Ty) (ts : List Ty) (K : List HClass) (us : List Ty) :
    ∀ (i : Nat) (vs : List Val) (n : Nat), ts.drop i = us →
    (∀ t ∈ us, ∀ (K : List HClass) (target : Val) (n m : Nat), K.length + (least t).depth ≤ d → ∃ v n', pval env host (least t) K (openP env t target n).1 m = .ok v n') →
    K.length + 1 + Json.depthAll (leastAll us) ≤ d →
    ∃ ws n', loopFix env host K C ts (pitems env host (leastAll us)) i vs n = .ok ws n' := by
  induction us with
  | nil =>
    intro i vs n hi _ _
    have : ts[i]? = none := by
      rw [List.getElem?_eq_none_iff]
      have := congrArg List.length hi
      simp at this
      omega
    exact ⟨vs, n, by simp [leastAll, pitems, loopFix, this]⟩
  | cons t us ih =>
    intro i vs n hi hl hd
    have ht : ts[i]? = some t := by
      have := congrArg (fun l => l[0]?) hi
      simpa using this
    have hi' : ts.drop (i + 1) = us := by
      have := congrArg List.tail hi
      simpa [List.tail_drop] using this
    simp only [leastAll, Json.depthAll] at hd
    have hm1 : (least t).depth ≤ Nat.max (least t).depth (Json.depthAll (leastAll us)) := Nat.le_max_left ..
    have hm2 : Json.depthAll (leastAll us) ≤ Nat.max (least t).depth (Json.depthAll (leastAll us)) := Nat.le_max_right ..
    simp only [leastAll, pitems, loopFix, ht, if_pos (hroom K (.fixed C (i + 1)) (by omega)), withChild]
    rw [if_pos (hroom (.fixed C (i + 1) :: K) (.parser t) (by simp only [List.length_cons]; omega))]
    obtain ⟨v, n', hv⟩ := hl t (by simp) (.fixed C (i + 1) :: K) (vs.getD i (env.ctor t)) n (openP env t (vs.getD i (env.ctor t)) n).2.2
      (by simp only [List.length_cons]; omega)
    rw [hv]
    exact ih (i + 1) _ n' hi' (fun u hu => hl u (by simp [hu])) (by omega)

include hroom in
theorem least_ok (hG : ViableClasses env G H) : ∀ (t : Ty), Viable G H t → ∀ (K : List HClass) (target : Val) (n m : Nat), K.length + (least t).depth ≤ d →
    ∃ v n', pval env host (least t) K (openP env t target n).1 m = .ok v n' := by
  intro t
  induction hs : sizeOf t using Nat.strongRecOn generalizing t with
  | _ s ih =>
    subst hs
    intro ht K target n m hd
    cases t with
    | prim p =>
      obtain ⟨pv, hp⟩ := leastLeaf_ok env p ht
      have hst : p.stays = false := ht
      have : pval env host (leastLeaf p) = scalar env (first (leastLeaf p)) := by cases p <;> rfl
      rw [least, this]
      exact ⟨.prim pv, m, by simp [openP, scalar, hp, hst]⟩
    | vec t => exact ⟨.seq target.elements, m, by simp [least, openP, pval, arrayFn, pitems, loopVec, LRes.whole, hroom K (.vecItems t) (by omega)]⟩
    | set t =>
      exact ⟨.set target.elements, m, by simp [least, openP, pval, arrayFn, pitems, loopSet, LRes.whole, hroom K (.setItems t) (by omega)]⟩
    | dict t =>
      exact ⟨.seq (target.entries.map pairOf), m, by
        simp [least, openP, pval, arrayFn, pitems, loopVec, LRes.whole, hroom K (.vecItems (.tuple [.prim .str, t])) (by omega)]⟩
    | map o t =>
      exact ⟨.map target.entries, m, by simp [least, openP, pval, objectFn, pfields, loopMap, LRes.whole, hroom K (.mapItems (.map o t)) (by omega)]⟩
    | cls c =>
      have hne := (hG c ht.2).1
      exact ⟨.obj (fitMembers env (env.members c) target.members), m, by
        simp [least, openP, hne, pval, objectFn, pfields, loopObj, LRes.whole, hroom K (.object c) (by omega)]⟩
    | variant ts => exact ht.elim
    | uptr t => exact ih (sizeOf t) (by simp) t rfl ht K (env.ctor t) n m hd
    | sptr t => exact ih (sizeOf t) (by simp) t rfl ht K (env.ctor t) (n + 1) m hd
    | arr k t =>
      simp only [least, Json.depth, ← leastAll_replicate] at hd
      obtain ⟨ws, n', h⟩ := loopFix_least (env := env) hroom (.arr k t) (List.replicate k t) K (List.replicate k t) 0
        (fit env (List.replicate k t) target.components) m rfl
        (fun u hu => by obtain rfl := (List.mem_replicate.1 hu).2; exact fun K target n m => ih (sizeOf u) (by simp; omega) u rfl ht.2 K target n m) (by omega)
      refine ⟨.tup ws, n', ?_⟩
      simp [least, openP, pval, arrayFn, ← leastAll_replicate, h, LRes.whole, hroom K (.fixed (.arr k t) 0) (by omega)]
    | tuple ts =>
      simp only [least, Json.depth] at hd
      have hall := viableAll_iff.1 ht.2
      obtain ⟨ws, n', h⟩ := loopFix_least (env := env) hroom (.tuple ts) ts K ts 0 (fit env ts target.components) m rfl
        (fun u hu K target n m => ih (sizeOf u) (by have := List.sizeOf_lt_of_mem hu; simp; omega) u rfl (hall u hu) K target n m) (by omega)
      refine ⟨.tup ws, n', ?_⟩
      simp [least, openP, pval, arrayFn, h, LRes.whole, hroom K (.fixed (.tuple ts) 0) (by omega)]

end

/-! ## Documents of which only the beginning is known -/

/-- A container that is open: its parts so far, for an object also the key whose value is to follow. -/
inductive Hole
  | arr (js : List Json)
  | obj (ms : List (Str × Json)) (k : Option Str)

/-- The events so far, the innermost container first. -/
def flat : List Hole → List Event
  | [] => []
  | .arr js :: hs => flat hs ++ .startArr :: eventsItems js
  | .obj ms none :: hs => flat hs ++ .startObj :: eventsMembers ms
  | .obj ms (some k) :: hs => flat hs ++ .startObj :: (eventsMembers ms ++ [.key k])

/-- A value may follow. -/
def Waits : List Hole → Prop
  | .obj _ none :: _ => False
  | _ => True

/-- The last event is not a key. -/
def Unkeyed : List Hole → Prop
  | .obj _ (some _) :: _ => False
  | _ => True

theorem eventsItems_snoc (js : List Json) (j : Json) : eventsItems (js ++ [j]) = eventsItems js ++ events j := by
  induction js with
  | nil => simp [eventsItems]
  | cons i js ih => simp [eventsItems, ih]

theorem eventsItems_join (js ks : List Json) : eventsItems (js ++ ks) = eventsItems js ++ eventsItems ks := by
  induction js with
  | nil => simp [eventsItems]
  | cons i js ih => simp [eventsItems, ih]

theorem eventsMembers_snoc (ms : List (Str × Json)) (k : Str) (j : Json) :
    eventsMembers (ms ++ [(k, j)]) = eventsMembers ms ++ .key k :: events j := by
  induction ms with
  | nil => simp [eventsMembers]
  | cons p ms ih => obtain ⟨l, i⟩ := p; simp [eventsMembers, ih]

theorem pending_append (es fs : List Event) : pending (es ++ fs) = pending es + pending fs := by
  simp [pending]

theorem pending_cons (e : Event) (es : List Event) : pending (e :: es) = e.opens + pending es := by
  simp [pending]

theorem pending_nil : pending [] = 0 := rfl

theorem pending_items {js : List Json} (h : ∀ j ∈ js, pending (events j) = 0) : pending (eventsItems js) = 0 := by
  induction js with
  | nil => rfl
  | cons j js ih => rw [eventsItems, pending_append, h j (by simp), ih fun j' hj' => h j' (by simp [hj'])]; rfl

theorem pending_members {ms : List (Str × Json)} (h : ∀ p ∈ ms, pending (events p.2) = 0) : pending (eventsMembers ms) = 0 := by
  induction ms with
  | nil => rfl
  | cons p ms ih =>
    obtain ⟨k, j⟩ := p
    rw [eventsMembers, pending_cons, pending_append, h (k, j) (by simp), ih fun p' hp' => h p' (by simp [hp'])]
    rfl

theorem pending_events (j : Json) : pending (events j) = 0 := by
  generalize hn : sizeOf j = n
  induction n using Nat.strongRecOn generalizing j with
  | ind n ih =>
    subst hn
    cases j with
    | arr js =>
      rw [events, pending_cons, pending_append, pending_items fun j hj => ih (sizeOf j) (by have := List.sizeOf_lt_of_mem hj; simp; omega) j rfl]
      rfl
    | obj ms =>
      rw [events, pending_cons, pending_append, pending_members fun p hp => ih (sizeOf p.2) (by
        have h1 := List.sizeOf_lt_of_mem hp
        have : sizeOf p = 1 + sizeOf p.1 + sizeOf p.2 := by cases p; rfl
        simp; omega) p.2 rfl]
      rfl
    | _ => rfl

theorem pending_flat : ∀ hs, pending (flat hs) = hs.length
  | [] => rfl
  | .arr js :: hs => by
    rw [flat, pending_append, pending_flat hs, pending_cons, pending_items fun j _ => pending_events j]
    simp [Event.opens]
  | .obj ms none :: hs => by
    rw [flat, pending_append, pending_flat hs, pending_cons, pending_members fun p _ => pending_events p.2]
    simp [Event.opens]
  | .obj ms (some k) :: hs => by
    rw [flat, pending_append, pending_flat hs, pending_cons, pending_append, pending_members fun p _ => pending_events p.2]
    simp [Event.opens, pending_cons, pending_nil]

/-! ## The handlers between two events -/

section
variable (G : Nat → Prop) (H : Nat)

/-- A handler that waits for a value of a viable type. -/
def OpensViable : Handler → Prop
  | .leaf p _ => p.stays = false
  | .vecStart t _ | .setStart t _ | .mapStart _ t _ => Viable G H t
  | .fixStart _ ts _ => ViableAll G H ts
  | .objStart c _ => G c
  | _ => False

/-- A handler that is inside an array. -/
def InArray : Handler → Prop
  | .vecItems t _ | .setItems t _ _ => Viable G H t
  | .fixItems _ ts _ _ => ViableAll G H ts
  | _ => False

/-- A handler that is inside an object. -/
def InObject : Handler → Prop
  | .mapItems _ t _ => Viable G H t
  | .objItems c _ => G c
  | _ => False

/-- One handler for each open container. -/
inductive Tower : List Frame → List Hole → Prop
  | nil : Tower [] []
  | arr {f : Frame} {rest : List Frame} {hs : List Hole} {js : List Json} :
      InArray G H f.handler → Tower rest hs → Waits hs → Tower (f :: rest) (.arr js :: hs)
  | obj {f : Frame} {rest : List Frame} {hs : List Hole} {ms : List (Str × Json)} {k : Option Str} :
      InObject G H f.handler → Tower rest hs → Waits hs → Tower (f :: rest) (.obj ms k :: hs)

/-- The stack after the events `es`. -/
inductive OnTrack : PState → List Event → Prop
  | inside {s : PState} {hs : List Hole} : Tower G H s.stack hs → hs ≠ [] → Unkeyed hs → OnTrack s (flat hs)
  | waiting {s : PState} {f : Frame} {rest : List Frame} {hs : List Hole} :
      s.stack = f :: rest → OpensViable G H f.handler → Tower G H rest hs → Waits hs → OnTrack s (flat hs)
  | done {s : PState} {j : Json} : s.stack = [] → OnTrack s (events j)
end

section
variable {env : Env} {host : Host} {G : Nat → Prop} {H d : Nat}

theorem plug_array {h : Handler} (l : Link) (v : Val) (hh : InArray G H h) : InArray G H (plug h l v) := by
  cases h <;> first | exact hh.elim | (cases l <;> exact hh)

theorem plug_object {h : Handler} (l : Link) (v : Val) (hh : InObject G H h) : InObject G H (plug h l v) := by
  cases h <;> first | exact hh.elim | (cases l <;> exact hh)

theorem openP_viable (hG : ViableClasses env G H) : ∀ {t : Ty}, Viable G H t → ∀ (target : Val) (n : Nat), OpensViable G H (openP env t target n).1
  | .prim _, h, _, _ => h
  | .vec _, h, _, _ => h.2
  | .set _, h, _, _ => h.2
  | .map _ _, h, _, _ => h.2
  | .cls c, h, _, _ => by
    simp only [openP, if_neg (hG c h.2).1]
    exact h.2
  | .arr k t, h, _, _ => viableAll_iff.2 fun u hu => by
    obtain rfl := (List.mem_replicate.1 hu).2
    exact h.2
  | .tuple _, h, _, _ => h.2
  | .dict t, h, _, _ => ⟨h.1, rfl, h.2, trivial⟩
  | .uptr t, h, _, n => openP_viable hG (t := t) h (env.ctor t) n
  | .sptr t, h, _, n => openP_viable hG (t := t) h (env.ctor t) (n + 1)

theorem along_pop {rest : List Frame} {hs : List Hole} (hT : Tower G H rest hs) (hw : Waits hs) (wrap : Val → Val) (link : Link) (v : Val)
    (fin : Option Val) (n : Nat) (j : Json) : OnTrack G H (popTo wrap link v rest fin n) (flat hs ++ events j) := by
  cases hT with
  | nil => exact .done rfl
  | @arr f rest hs js hf hr hw' =>
    have : flat (.arr js :: hs) ++ events j = flat (.arr (js ++ [j]) :: hs) := by simp [flat, eventsItems_snoc]
    rw [this]
    exact .inside (.arr (plug_array _ _ hf) hr hw') (by simp) trivial
  | @obj f rest hs ms k hf hr hw' =>
    cases k with
    | none => exact hw.elim
    | some k =>
      have : flat (.obj ms (some k) :: hs) ++ events j = flat (.obj (ms ++ [(k, j)]) none :: hs) := by simp [flat, eventsMembers_snoc]
      rw [this]
      exact .inside (.obj (plug_object _ _ hf) hr hw') (by simp) trivial

theorem leafParse_document {p : Prim} {e : Event} {pv : PVal} (h : leafParse env p e = .ok pv) : ∃ j, events j = [e] := by
  cases e with
  | null => exact ⟨.null, rfl⟩
  | bool b => exact ⟨.bool b, rfl⟩
  | num m => exact ⟨.num m, rfl⟩
  | str s => exact ⟨.str s, rfl⟩
  | _ => cases p <;> cases h

theorem along_replace {f : Frame} {rest : List Frame} {fin : Option Val} {n : Nat} {c : HClass} {h : Handler} {s' : PState}
    (hr : replaceTop host f rest fin n c h = .go s') : s' = ⟨{ f with cls := c, handler := h } :: rest, fin, n⟩ := by
  unfold replaceTop at hr
  split at hr
  · cases hr; rfl
  · cases hr

theorem along_open {f : Frame} {rest : List Frame} {hs : List Hole} {fin : Option Val} {n : Nat} {e : Event} {s' : PState}
    (hf : OpensViable G H f.handler) (hT : Tower G H rest hs) (hw : Waits hs) (h : openStep env host f rest fin n e = .go s') :
    OnTrack G H s' (flat hs ++ [e]) := by
  unfold openStep at h
  have harr : ∀ c g, e = .startArr → InArray G H g → replaceTop host f rest fin n c g = .go s' → OnTrack G H s' (flat hs ++ [e]) := by
    intro c g he hg hr
    subst he
    obtain rfl := along_replace hr
    have : flat hs ++ [Event.startArr] = flat (.arr [] :: hs) := by simp [flat, eventsItems]
    rw [this]
    exact .inside (.arr hg hT hw) (by simp) trivial
  have hobj : ∀ c g, e = .startObj → InObject G H g → replaceTop host f rest fin n c g = .go s' → OnTrack G H s' (flat hs ++ [e]) := by
    intro c g he hg hr
    subst he
    obtain rfl := along_replace hr
    have : flat hs ++ [Event.startObj] = flat (.obj [] none :: hs) := by simp [flat, eventsMembers]
    rw [this]
    exact .inside (.obj hg hT hw) (by simp) trivial
  cases hh : f.handler with
  | leaf p v =>
    rw [hh] at h hf
    have hst : p.stays = false := hf
    simp only [hst] at h
    cases hp : leafParse env p e with
    | ok pv =>
      simp only [hp] at h
      cases h
      obtain ⟨j, hj⟩ := leafParse_document hp
      rw [← hj]
      exact along_pop hT hw _ _ _ _ _ j
    | fail => simp [hp] at h
    | ub => simp [hp] at h
  | vecStart t vs => rw [hh] at h hf; cases e <;> first | cases h | exact harr _ (.vecItems t vs) rfl hf h
  | setStart t vs => rw [hh] at h hf; cases e <;> first | cases h | exact harr _ (.setItems t [] vs) rfl hf h
  | fixStart C ts vs => rw [hh] at h hf; cases e <;> first | cases h | exact harr _ (.fixItems C ts 0 vs) rfl hf h
  | mapStart C t kvs => rw [hh] at h hf; cases e <;> first | cases h | exact hobj _ (.mapItems C t kvs) rfl hf h
  | objStart c vs => rw [hh] at h hf; cases e <;> first | cases h | exact hobj _ (.objItems c vs) rfl hf h
  | _ => rw [hh] at hf; exact hf.elim

theorem emplaceP_go {rest : List Frame} {n : Nat} {c : HClass} {t : Ty} {target : Val} {link : Link} {outer : Val → Val}
    {k : Frame → Nat → POut} {s' : PState} (h : emplaceP env host rest n c t target link outer k = .go s') :
    k ⟨c, (openP env t target n).1, link, fun v => outer ((openP env t target n).2.1 v)⟩ (openP env t target n).2.2 = .go s' := by
  unfold emplaceP at h
  split at h
  · exact h
  · cases h

/-- The handlers accept an event. -/
theorem along_step (hG : ViableClasses env G H) {s s' : PState} {es : List Event} {e : Event} (hs : OnTrack G H s es)
    (h : pstep env host s e = .go s') : OnTrack G H s' (es ++ [e]) := by
  cases hs with
  | done hst => simp [pstep, hst] at h
  | @waiting f rest hs hst hf hT hw =>
    obtain ⟨st, fin, n⟩ := s
    obtain rfl : st = f :: rest := hst
    have ho : f.handler.isOpen = true := by
      cases hh : f.handler <;> first | rfl | (rw [hh] at hf; exact hf.elim)
    rw [pstep_open env host f rest fin n e ho] at h
    exact along_open hf hT hw h
  | @inside hs hT hne hu =>
    obtain ⟨st, fin, n⟩ := s
    cases hT with
    | nil => exact (hne rfl).elim
    | @arr f rest hs js hf hr hw =>
      have hclose : ∀ wrap link v fin n, OnTrack G H (popTo wrap link v rest fin n) (flat (.arr js :: hs) ++ [.endArr]) := by
        intro wrap link v fin n
        have : flat (.arr js :: hs) ++ [Event.endArr] = flat hs ++ events (.arr js) := by simp [flat, events]
        rw [this]
        exact along_pop hr hw _ _ _ _ _ _
      have hstay : ∀ g pv fin n p, InArray G H g → leafParse env p e = .ok pv →
          OnTrack G H ⟨{ f with handler := g } :: rest, fin, n⟩ (flat (.arr js :: hs) ++ [e]) := by
        intro g pv fin n p hg hp
        obtain ⟨j, hj⟩ := leafParse_document hp
        have : flat (.arr js :: hs) ++ [e] = flat (.arr (js ++ [j]) :: hs) := by simp [flat, eventsItems_snoc, hj]
        rw [this]
        exact .inside (.arr hg hr hw) (by simp) trivial
      unfold pstep at h
      simp only at h
      cases hh : f.handler with
      | vecItems t vs =>
        rw [hh] at h hf
        simp only at h
        split at h
        · cases h; exact hclose _ _ _ _ _
        · split at h
          · rename_i p hp
            cases hl : leafParse env p e with
            | ok pv => simp only [hl] at h; cases h; exact hstay (.vecItems t (vs ++ [.prim pv])) pv _ _ p hf hl
            | fail => simp [hl] at h
            | ub => simp [hl] at h
          · split at h
            · exact along_open (openP_viable hG hf _ _) (.arr (by rw [hh]; exact hf) hr hw) trivial (emplaceP_go h)
            · cases h
      | setItems t storage vs =>
        rw [hh] at h hf
        simp only at h
        split at h
        · cases h; exact hclose _ _ _ _ _
        · split at h
          · rename_i p hp
            cases hl : leafParse env p e with
            | ok pv => simp only [hl] at h; cases h; exact hstay (.setItems t storage (setInsert env.less (.prim pv) vs)) pv _ _ p hf hl
            | fail => simp [hl] at h
            | ub => simp [hl] at h
          · split at h
            · exact along_open (openP_viable hG hf _ _) (.arr (by rw [hh]; exact hf) hr hw) trivial (emplaceP_go h)
            · cases h
      | fixItems C ts i vs =>
        rw [hh] at h hf
        simp only at h
        split at h
        · split at h
          · cases h; exact hclose _ _ _ _ _
          · cases h
        · rename_i t ht
          split at h
          · split at h
            · exact along_open (openP_viable hG (viableAll_iff.1 hf t (List.mem_of_getElem? ht)) _ _) (.arr (by exact hf) hr hw) trivial
                (emplaceP_go h)
            · cases h
          · cases h
      | _ => rw [hh] at hf; exact hf.elim
    | @obj f rest hs ms k hf hr hw =>
      cases k with
      | some k => exact hu.elim
      | none =>
      have hclose : ∀ wrap link v fin n, OnTrack G H (popTo wrap link v rest fin n) (flat (.obj ms none :: hs) ++ [.endObj]) := by
        intro wrap link v fin n
        have : flat (.obj ms none :: hs) ++ [Event.endObj] = flat hs ++ events (.obj ms) := by simp [flat, events]
        rw [this]
        exact along_pop hr hw _ _ _ _ _ _
      have hkey : ∀ k g fin n, OpensViable G H g.handler → OnTrack G H ⟨g :: f :: rest, fin, n⟩ (flat (.obj ms none :: hs) ++ [.key k]) := by
        intro k g fin n hg
        have : flat (.obj ms none :: hs) ++ [Event.key k] = flat (.obj ms (some k) :: hs) := by simp [flat]
        rw [this]
        exact .waiting rfl hg (.obj hf hr hw) trivial
      unfold pstep at h
      simp only at h
      cases hh : f.handler with
      | mapItems C t kvs =>
        rw [hh] at h hf
        simp only at h
        split at h
        · cases h; exact hclose _ _ _ _ _
        · have := emplaceP_go h
          cases this
          exact hkey _ _ _ _ (openP_viable hG hf _ _)
        · cases h
      | objItems c vs =>
        rw [hh] at h hf
        simp only at h
        split at h
        · cases h; exact hclose _ _ _ _ _
        · split at h
          · cases h
          · cases h
          · split at h
            · cases h
            · rename_i m hm
              have hv := (hG c hf).2 m (List.mem_of_getElem? hm)
              split at h
              · have := emplaceP_go h
                cases this
                exact hkey _ _ _ _ (openP_viable hG hv _ _)
              · have := emplaceP_go h
                cases this
                exact hkey _ _ _ _ (openP_viable hG hv _ _)
        · cases h
      | _ => rw [hh] at hf; exact hf.elim

theorem along_run (hG : ViableClasses env G H) {es : List Event} : ∀ {s s' : PState} {fs : List Event}, OnTrack G H s fs →
    prun env host s es = .go s' → OnTrack G H s' (fs ++ es) := by
  induction es with
  | nil => intro s s' fs hs h; cases h; simpa using hs
  | cons e es ih =>
    intro s s' fs hs h
    rw [prun_cons] at h
    split at h
    · rename_i s1 h1
      have := ih (along_step hG hs h1) h
      simpa using this
    all_goals cases h

theorem along_start (hG : ViableClasses env G H) {t : Ty} (ht : Viable G H t) (target : Val) (n : Nat) : OnTrack G H (start env t target n) [] :=
  .waiting (hs := []) rfl (openP_viable hG ht target n) .nil trivial

theorem tower_length {st : List Frame} {hs : List Hole} (h : Tower G H st hs) : st.length = hs.length := by
  induction h with
  | nil => rfl
  | arr _ _ _ ih => simp [ih]
  | obj _ _ _ ih => simp [ih]

theorem along_length {s : PState} {es : List Event} (h : OnTrack G H s es) : (s.stack.length : Int) ≤ pending es + 1 := by
  cases h with
  | done hst => rw [hst, pending_events]; simp
  | waiting hst _ hT _ => rw [hst, pending_flat, ← tower_length hT]; simp
  | inside hT _ _ => rw [pending_flat, ← tower_length hT]; omega

/-! ## Going on to the end -/

/-- The events can be continued to those of a document that the handlers accept. -/
def Ends (env : Env) (host : Host) (s : PState) (es : List Event) : Prop :=
  ∃ more j s', es ++ more = events j ∧ prun env host s more = .go s'

theorem ends_back {s s1 : PState} {es fs : List Event} (h : prun env host s fs = .go s1) (h1 : Ends env host s1 (es ++ fs)) :
    Ends env host s es := by
  obtain ⟨more, j, s', hj, hr⟩ := h1
  exact ⟨fs ++ more, j, s', by rw [← List.append_assoc, hj], by rw [prun_append, h]; exact hr⟩

theorem prun_one {s s1 : PState} {e : Event} (h : pstep env host s e = .go s1) : prun env host s [e] = .go s1 := by
  rw [prun_cons, h]; rfl

theorem popTo_length (wrap : Val → Val) (link : Link) (v : Val) (rest : List Frame) (fin : Option Val) (n : Nat) :
    (popTo wrap link v rest fin n).stack.length = rest.length := by
  cases rest <;> rfl

theorem along_ends (hroom : Roomy host d) (hG : ViableClasses env G H) : ∀ (N : Nat) {s : PState} {es : List Event}, OnTrack G H s es → s.stack.length ≤ N →
    s.stack.length + H ≤ d → Ends env host s es := by
  intro N
  induction N with
  | zero =>
    intro s es hs hN _
    cases hs with
    | @done j hst => exact ⟨[], j, s, by simp, rfl⟩
    | waiting hst _ _ _ => rw [hst] at hN; simp at hN
    | inside hT hne _ =>
      have := tower_length hT
      exact (hne (List.length_eq_zero_iff.1 (by omega))).elim
  | succ N ih =>
    have hin : ∀ {s : PState} {hs : List Hole}, Tower G H s.stack hs → hs ≠ [] → Unkeyed hs → s.stack.length ≤ N + 1 →
        s.stack.length + H ≤ d → Ends env host s (flat hs) := by
      intro s hs hT hne hu hN hd
      have hal : OnTrack G H s (flat hs) := .inside hT hne hu
      have hfin : ∀ (wrap : Val → Val) (link : Link) (v : Val) (rest : List Frame) (fin : Option Val) (n : Nat) (fs : List Event), rest.length + 1 = s.stack.length →
          prun env host s fs = .go (popTo wrap link v rest fin n) → Ends env host s (flat hs) := by
        intro wrap link v rest fin n fs hl hr
        refine ends_back hr (ih (along_run hG hal hr) ?_ ?_)
        · rw [popTo_length]; omega
        · rw [popTo_length]; omega
      obtain ⟨st, fin, n⟩ := s
      cases hT with
      | nil => exact (hne rfl).elim
      | @arr f rest hs js hf hr hw =>
        cases hh : f.handler with
        | vecItems t vs => exact hfin f.wrap f.link (.seq vs) rest fin n [.endArr] rfl (prun_one (by simp [pstep, hh]))
        | setItems t storage vs =>
          exact hfin f.wrap f.link (.set (storage.foldl (fun s v => setInsert env.less v s) vs)) rest fin n [.endArr] rfl (prun_one (by simp [pstep, hh]))
        | fixItems C ts i vs =>
          rw [hh] at hf
          have hall := viableAll_iff.1 hf
          have hd' : rest.length + 1 + H ≤ d := by simpa using hd
          have hdep : ∀ t ∈ ts.drop i, (least t).depth ≤ H := fun t ht => viable_depth (hall t (List.mem_of_mem_drop ht))
          obtain ⟨ws, n', hl⟩ := loopFix_least (env := env) hroom C ts (rest.map (·.cls)) (ts.drop i) i vs n rfl
            (fun t ht K target n m hK => least_ok hroom hG t (hall t (List.mem_of_mem_drop ht)) K target n m hK)
            (by
              have : Json.depthAll (leastAll (ts.drop i)) ≤ H := depthAll_le.2 (by
                rw [leastAll_eq]
                intro j hj
                obtain ⟨t, ht, rfl⟩ := List.mem_map.1 hj
                exact hdep t ht)
              simp only [List.length_map]
              omega)
          have := run_fix env host C ts (leastAll (ts.drop i)) (fun j _ => delivers env host j) f rest fin n i f.cls vs []
          rw [hl] at this
          have hff : ({ f with cls := f.cls, handler := .fixItems C ts i vs } : Frame) = f := by
            obtain ⟨a, b, c, e⟩ := f
            simp only at hh
            rw [hh]
          rw [hff] at this
          exact hfin f.wrap f.link (.tup ws) rest fin n' _ rfl this
        | _ => rw [hh] at hf; exact hf.elim
      | @obj f rest hs ms k hf hr hw =>
        cases hh : f.handler with
        | mapItems C t kvs => exact hfin f.wrap f.link (.map kvs) rest fin n [.endObj] rfl (prun_one (by simp [pstep, hh]))
        | objItems c vs => exact hfin f.wrap f.link (.obj vs) rest fin n [.endObj] rfl (prun_one (by simp [pstep, hh]))
        | _ => rw [hh] at hf; exact hf.elim
    intro s es hs hN hd
    have hs' := hs
    cases hs with
    | @done j hst => exact ⟨[], j, s, by simp, rfl⟩
    | inside hT hne hu => exact hin hT hne hu hN hd
    | @waiting f rest hs hst hf hT hw =>
      obtain ⟨st, fin, n⟩ := s
      obtain rfl : st = f :: rest := hst
      have ho : f.handler.isOpen = true := by
        cases hh : f.handler <;> first | rfl | (rw [hh] at hf; exact hf.elim)
      simp only [List.length_cons] at hN hd
      have hstart : ∀ (e : Event) (c : HClass) (g : Handler) (hs' : List Hole), openStep env host f rest fin n e = replaceTop host f rest fin n c g →
          flat hs ++ [e] = flat hs' → hs' ≠ [] → Unkeyed hs' → Tower G H ({ f with cls := c, handler := g } :: rest) hs' →
          Ends env host ⟨f :: rest, fin, n⟩ (flat hs) := by
        intro e c g hs' h1 h2 h3 h4 h5
        have hgo : pstep env host ⟨f :: rest, fin, n⟩ e = .go ⟨{ f with cls := c, handler := g } :: rest, fin, n⟩ := by
          rw [pstep_open env host f rest fin n e ho, h1, replaceTop, if_pos (hroom _ _ (by simp only [List.length_map]; omega))]
        refine ends_back (prun_one hgo) ?_
        rw [h2]
        exact hin h5 h3 h4 (by simpa using hN) (by simpa using hd)
      have harr : ∀ (c : HClass) (g : Handler), openStep env host f rest fin n .startArr = replaceTop host f rest fin n c g → InArray G H g →
          Ends env host ⟨f :: rest, fin, n⟩ (flat hs) := fun c g h1 hg =>
        hstart .startArr c g (.arr [] :: hs) h1 (by simp [flat, eventsItems]) (by simp) trivial (.arr hg hT hw)
      have hobj : ∀ (c : HClass) (g : Handler), openStep env host f rest fin n .startObj = replaceTop host f rest fin n c g → InObject G H g →
          Ends env host ⟨f :: rest, fin, n⟩ (flat hs) := fun c g h1 hg =>
        hstart .startObj c g (.obj [] none :: hs) h1 (by simp [flat, eventsMembers]) (by simp) trivial (.obj hg hT hw)
      cases hh : f.handler with
      | leaf p v =>
        rw [hh] at hf
        have hst : p.stays = false := hf
        obtain ⟨pv, hp⟩ := leastLeaf_ok env p hst
        have hgo : pstep env host ⟨f :: rest, fin, n⟩ (first (leastLeaf p)) = .go (popTo f.wrap f.link (.prim pv) rest fin n) := by
          rw [pstep_open env host f rest fin n _ ho, openStep]
          simp only [hh, hp, hst]
          rfl
        refine ends_back (prun_one hgo) (ih (along_step hG hs' hgo) ?_ ?_)
        · rw [popTo_length]; omega
        · rw [popTo_length]; omega
      | vecStart t vs => rw [hh] at hf; exact harr (.vecItems t) (.vecItems t vs) (by simp [openStep, hh]) hf
      | setStart t vs => rw [hh] at hf; exact harr (.setItems t) (.setItems t [] vs) (by simp [openStep, hh]) hf
      | fixStart C ts vs => rw [hh] at hf; exact harr (.fixed C 0) (.fixItems C ts 0 vs) (by simp [openStep, hh]) hf
      | mapStart C t kvs => rw [hh] at hf; exact hobj (.mapItems C) (.mapItems C t kvs) (by simp [openStep, hh]) hf
      | objStart c vs => rw [hh] at hf; exact hobj (.object c) (.objItems c vs) (by simp [openStep, hh]) hf
      | _ => rw [hh] at hf; exact hf.elim

end

end Verif.Core
