import Verif.Parse
import Verif.ParseLemmas
import Verif.ParseSpec

/-!
# Error messages of the streaming parser

Model of `ReaderContext::fail` / `has_error` / `get_error` (parse_base.hpp:39-52), of the default reactions of
`JsonParseHandler` (parse_base.hpp:61-154), of the messages that the handlers of single types leave, and of the
text of `JsonParseError` (exception.hpp:15-24, parse.hpp:41-48).

Parameters: the offset and the English text that RapidJSON gives for a syntax error.
-/

namespace Verif.Core
open Verif.Numeric Verif.EnumConv Verif.PerfectHash

/-! ## Tokens -/

/-- The token types of detail/parse_event.hpp:6-113, as far as their names differ (the six kinds of numbers have
the same name). -/
inductive Token
  | null | bool | num | str | startObj | key | endObj | startArr | endArr
deriving DecidableEq, Repr

/-- The member `name` of the token types (detail/parse_event.hpp:8, 13, 22-67, 77, 87, 92, 102, 107, 112). -/
def Token.name : Token → Str
  | .null => lit "null"
  | .bool => lit "boolean"
  | .num => lit "number"
  | .str => lit "string"
  | .startObj => lit "'{'"
  | .key => lit "key name"
  | .endObj => lit "'}'"
  | .startArr => lit "'['"
  | .endArr => lit "']'"

/-- The token type of an event (detail/parse_event.hpp:136-206). -/
def Event.token : Event → Token
  | .null => .null
  | .bool _ => .bool
  | .num _ => .num
  | .str _ => .str
  | .startObj => .startObj
  | .key _ => .key
  | .endObj => .endObj
  | .startArr => .startArr
  | .endArr => .endArr

/-- The fold over the other expected tokens in `JsonParseHandler::fail` (parse_base.hpp:74). -/
def orNames : List Token → Str
  | [] => []
  | t :: ts => lit " or " ++ t.name ++ orNames ts

/-- The text made by `JsonParseHandler<ExpectToken, ExpectTokens...>::fail<FoundToken>` (parse_base.hpp:69-80). The
list of expected tokens is never empty. -/
def tokenFail (expected : List Token) (found : Token) : Str :=
  lit "expected JSON token: " ++ (match expected with | [] => [] | t :: ts => t.name ++ orNames ts) ++
    lit "; got: " ++ found.name

/-- `JsonParser<T>::json_type` of the leaf types (parse_fundamental.hpp:12, 33, 85; parse_string.hpp:10;
parse_bytes.hpp:10; parse_datetime.hpp:11; parse_date.hpp:14; parse_enum.hpp:17, 82, 112). -/
def Prim.token : Prim → Token
  | .null => .null
  | .bool => .bool
  | .int _ | .flt _ | .enumInt _ => .num
  | .str | .bytes | .time | .date | .enumStr _ => .str

/-- `JsonParser<T>::json_type`: arrays (parse_vector.hpp:227, parse_set.hpp:236, parse_array.hpp:142, 150, 158),
objects (parse_map.hpp:39, parse_object.hpp:229); pointers inherit it (parse_pointer.hpp:14, 29). A variant has no
`JsonParser`; the value for it is never used. -/
def Ty.token : Ty → Token
  | .prim p => p.token
  | .vec _ | .arr _ _ | .set _ | .dict _ | .tuple _ => .startArr
  | .map _ _ | .cls _ => .startObj
  | .variant _ => .null
  | .uptr t => t.token
  | .sptr t => t.token

/-! ## Messages -/

/-- parse_fundamental.hpp:58. -/
def lossText : Str := lit "number cannot be assigned without data loss"
/-- parse_bytes.hpp:20. -/
def base64Text : Str := lit "invalid Base64-encoding for sequence of bytes"
/-- parse_datetime.hpp:21. -/
def timeText : Str := lit "invalid ISO-8601 date-time; expected: YYYY-MM-DDTHH:MM:SSZ, got: "
/-- parse_date.hpp:25. -/
def dateText : Str := lit "invalid ISO-8601 date; expected: YYYY-MM-DD, got: "
/-- parse_enum.hpp:97, 122. -/
def enumText : Str := lit "expected an enumeration string value; got: "
/-- parse_object.hpp:107, 151, 186. -/
def memberText : Str := lit "expected class member name; got: "

/-- `JsonNumberValueParser<T>::parse` (parse_fundamental.hpp:54-64). -/
def numReason (T : NumTy) (n : JsonNum) : Option Str :=
  match parseNumber T (classify n) with
  | some _ => none
  | none => some lossText

/-- The message that a handler for a leaf type leaves for an event, if any. `expected`: the tokens named by the base
class, `JsonParseHandler<json_type>` for the parser of a value, `JsonParseHandler<json_type, JsonArrayEnd>` for a
handler of elements that stores leaf values itself. `JsonEnumParser` has no override for `JsonValueDouble`
(parse_enum.hpp:24-44). Sources as in `leafParse`. -/
def leafReason (env : Env) (expected : List Token) : Prim → Event → Option Str
  | .null, e => match e with | .null => none | _ => some (tokenFail expected e.token)
  | .bool, e => match e with | .bool _ => none | _ => some (tokenFail expected e.token)
  | .int t, e => match e with | .num n => numReason (.int t) n | _ => some (tokenFail expected e.token)
  | .flt t, e => match e with | .num n => numReason (.flt t) n | _ => some (tokenFail expected e.token)
  | .enumInt t, e =>
      match e with
      | .num (.int v) => numReason (.int t) (.int v)
      | _ => some (tokenFail expected e.token)
  | .str, e => match e with | .str _ => none | _ => some (tokenFail expected e.token)
  | .bytes, e =>
      match e with
      | .str s => (match Base64.decode s with | some _ => none | none => some base64Text)
      | _ => some (tokenFail expected e.token)
  | .time, e =>
      match e with
      | .str s => (match DateTime.parseDatetime env.clk s with | .rejected => some (timeText ++ s) | _ => none)
      | _ => some (tokenFail expected e.token)
  | .date, e =>
      match e with
      | .str s => (match DateTime.readDate env.clk s with | .rejected => some (dateText ++ s) | _ => none)
      | _ => some (tokenFail expected e.token)
  | .enumStr table, e =>
      match e with
      | .str s => (match enumValue table s with | some _ => none | none => some (enumText ++ s))
      | _ => some (tokenFail expected e.token)

/-- The message left by a `JsonParser<T>`, if any: leaves as above, containers when the token is not the opening one
(parse_vector.hpp:225-242, parse_set.hpp:234-251, parse_array.hpp:102-118, parse_map.hpp:37-54,
parse_object.hpp:225-250). -/
def openReason (env : Env) (h : Handler) (e : Event) : Option Str :=
  match h with
  | .leaf p _ => leafReason env [p.token] p e
  | .vecStart _ _ => match e with | .startArr => none | _ => some (tokenFail [.startArr] e.token)
  | .setStart _ _ => match e with | .startArr => none | _ => some (tokenFail [.startArr] e.token)
  | .fixStart _ _ _ => match e with | .startArr => none | _ => some (tokenFail [.startArr] e.token)
  | .mapStart _ _ _ => match e with | .startObj => none | _ => some (tokenFail [.startObj] e.token)
  | .objStart _ _ => match e with | .startObj => none | _ => some (tokenFail [.startObj] e.token)
  | _ => none

/-- The message left by a handler of elements (parse_vector.hpp:14-222, parse_set.hpp:15-231): the bracket that
closes is accepted; leaf elements stored without a handler; else a handler for the element gets the token if it is of
type `json_type` (parse_items.hpp:7-11). -/
def itemReason (env : Env) (t : Ty) (n : Nat) (e : Event) : Option Str :=
  match e with
  | .endArr => none
  | e =>
      match direct t with
      | some p => leafReason env [t.token, .endArr] p e
      | none =>
          if isToken t e then openReason env (openP env t (env.ctor t) n).1 e
          else some (tokenFail [t.token, .endArr] e.token)

/-- The argument of the call of `context.fail` made while the event is handled, if there is one. -/
def reason (env : Env) (host : Host) (s : PState) (e : Event) : Option Str :=
  match s.stack with
  | [] => none
  | f :: _ =>
      match f.handler with
      | .vecItems t _ => itemReason env t s.next e
      | .setItems t _ _ => itemReason env t s.next e
      | .fixItems _ ts i vs =>
          (match ts[i]? with
          | none => (match e with | .endArr => none | _ => some (tokenFail [.endArr] e.token))
          | some t =>
              if e.startsValue then openReason env (openP env t (vs.getD i (env.ctor t)) s.next).1 e
              else some (tokenFail [t.token] e.token))
      | .mapItems _ _ _ =>
          (match e with
          | .endObj | .key _ => none
          | _ => some (tokenFail [.key, .endObj] e.token))
      | .objItems c _ =>
          (match e with
          | .endObj => none
          | .key k => (match selectMember env host c k with | .reject => some (memberText ++ k) | _ => none)
          | _ => some (tokenFail [.key, .endObj] e.token))
      | h => openReason env h e

/-- `error_message` after a sequence of events, `m` before (parse_base.hpp:49-52). `rapidjson::Reader` stops at the
first event that is refused. -/
def errorAfter (env : Env) (host : Host) : PState → List Event → Str → Str
  | _, [], m => m
  | s, e :: es, m =>
      let m' := (reason env host s e).getD m
      match pstep env host s e with
      | .go s' => errorAfter env host s' es m'
      | _ => m'

/-- `JsonParseError::what` (exception.hpp:18-21). -/
def parseErrorText (why : Str) (offset : Nat) : Str := lit "parse error at offset " ++ decimal offset ++ lit ": " ++ why

/-- The text of the `JsonParseError` thrown by `T parse(const std::string&)` (parse.hpp:41-48), if it throws one.
`offset` and `syntaxText` are `result.Offset()` and `GetParseError_En(result.Code())`. -/
def parseWhat (env : Env) (host : Host) (t : Ty) (feed : Feed) (n : Nat) (offset : Nat) (syntaxText : Str) : Option Str :=
  match parseThrow env host t feed n with
  | .parseError =>
      let m := errorAfter env host (start env t (env.fresh t) n) feed.events []
      some (parseErrorText (if m ≠ [] then m else syntaxText) offset)
  | _ => none

/-! ## Types that compile -/

mutual
/-- Types with a `JsonParser`: no variants; classes from `G`. -/
def Compiles (G : Nat → Prop) : Ty → Prop
  | .prim _ => True
  | .vec t => Compiles G t
  | .arr _ t => Compiles G t
  | .set t => Compiles G t
  | .map _ t => Compiles G t
  | .dict t => Compiles G t
  | .tuple ts => CompilesAll G ts
  | .variant _ => False
  | .cls c => G c
  | .uptr t => Compiles G t
  | .sptr t => Compiles G t

/-- `Compiles` for lists. -/
def CompilesAll (G : Nat → Prop) : List Ty → Prop
  | [] => True
  | t :: ts => Compiles G t ∧ CompilesAll G ts
end

/-- The classes of `G` have members whose types have a `JsonParser`. -/
def CompilesClasses (env : Env) (G : Nat → Prop) : Prop :=
  ∀ c, G c → env.members c ≠ [] ∧ ∀ m ∈ env.members c, Compiles G m.ty

/-- Handlers whose types have a `JsonParser`. -/
def Handler.compiles (G : Nat → Prop) : Handler → Prop
  | .leaf _ _ => True
  | .vecStart t _ | .vecItems t _ | .setStart t _ | .setItems t _ _ | .mapStart _ t _ | .mapItems _ t _ => Compiles G t
  | .fixStart _ ts _ | .fixItems _ ts _ _ => CompilesAll G ts
  | .objStart c _ | .objItems c _ => G c
  | .unsupported _ => False

/-- All handlers on the stack. -/
def PState.compiles (G : Nat → Prop) (s : PState) : Prop := ∀ f ∈ s.stack, f.handler.compiles G

/-! ## Lemmas -/

theorem CompilesAll_get {G : Nat → Prop} : ∀ {ts : List Ty} {i : Nat} {t : Ty}, CompilesAll G ts → ts[i]? = some t → Compiles G t
  | [], _, _, _, h => by simp at h
  | u :: us, 0, t, hc, h => by
      simp only [List.getElem?_cons_zero, Option.some.injEq] at h
      rw [CompilesAll] at hc
      exact h ▸ hc.1
  | u :: us, i + 1, t, hc, h => by
      rw [CompilesAll] at hc
      exact CompilesAll_get hc.2 (by simpa using h)

theorem CompilesAll_replicate {G : Nat → Prop} {t : Ty} (h : Compiles G t) : ∀ k, CompilesAll G (List.replicate k t)
  | 0 => by simp [CompilesAll]
  | k + 1 => by rw [List.replicate_succ, CompilesAll]; exact ⟨h, CompilesAll_replicate h k⟩

/-- A new handler for a type that compiles: an opening one, of types that compile. -/
theorem openP_compiles {env : Env} {G : Nat → Prop} (hG : CompilesClasses env G) :
    ∀ (t : Ty) (v : Val) (n : Nat), Compiles G t → (openP env t v n).1.compiles G ∧ (openP env t v n).1.isOpen = true
  | .prim p, _, _, _ => by simp [openP, Handler.compiles, Handler.isOpen]
  | .vec t, _, _, h => by simpa [openP, Handler.compiles, Handler.isOpen, Compiles] using h
  | .arr k t, _, _, h => by
      simp only [openP, Handler.compiles, Handler.isOpen, and_true]
      exact CompilesAll_replicate (by simpa [Compiles] using h) k
  | .set t, _, _, h => by simpa [openP, Handler.compiles, Handler.isOpen, Compiles] using h
  | .map o t, _, _, h => by simpa [openP, Handler.compiles, Handler.isOpen, Compiles] using h
  | .dict t, _, _, h => by simpa [openP, Handler.compiles, Handler.isOpen, Compiles, CompilesAll] using h
  | .tuple ts, _, _, h => by simpa [openP, Handler.compiles, Handler.isOpen, Compiles] using h
  | .variant ts, _, _, h => by simp [Compiles] at h
  | .cls c, _, _, h => by
      have hc : G c := by simpa [Compiles] using h
      simp [openP, (hG c hc).1, Handler.compiles, Handler.isOpen, hc]
  | .uptr t, _, n, h => openP_compiles hG t _ n (by simpa [Compiles] using h)
  | .sptr t, _, n, h => openP_compiles hG t _ (n + 1) (by simpa [Compiles] using h)

theorem tokenFail_ne (expected : List Token) (found : Token) : tokenFail expected found ≠ [] := by
  simp [tokenFail, lit]

theorem parseNumber_int_double (t : IntTy) (d : Flt) : parseNumber (.int t) (.double d) = none := rfl

/-- A leaf handler refuses an event exactly if it leaves a message. -/
theorem leafReason_isSome (env : Env) (expected : List Token) (p : Prim) (e : Event) :
    leafParse env p e = .fail ↔ (leafReason env expected p e).isSome = true := by
  cases p with
  | null => cases e <;> simp [leafParse, leafReason]
  | bool => cases e <;> simp [leafParse, leafReason]
  | str => cases e <;> simp [leafParse, leafReason]
  | int t =>
      cases e <;> simp only [leafParse, leafReason, numParse, numReason, Option.isSome_some]
      split <;> simp [*]
  | flt t =>
      cases e <;> simp only [leafParse, leafReason, numParse, numReason, Option.isSome_some]
      split <;> simp [*]
  | enumInt t =>
      cases e with
      | num n =>
          cases n with
          | int v => simp only [leafParse, leafReason, numParse, numReason]; split <;> simp [*]
          | dbl d => simp only [leafParse, leafReason, numParse, classify, parseNumber_int_double]; simp
      | _ => simp [leafParse, leafReason]
  | bytes => cases e <;> simp only [leafParse, leafReason, Option.isSome_some]; split <;> simp [*]
  | time => cases e <;> simp only [leafParse, leafReason, Option.isSome_some]; split <;> simp [*]
  | date => cases e <;> simp only [leafParse, leafReason, Option.isSome_some]; split <;> simp [*]
  | enumStr table => cases e <;> simp only [leafParse, leafReason, Option.isSome_some]; split <;> simp [*]

theorem leafReason_ne (env : Env) (expected : List Token) (p : Prim) (e : Event) (m : Str)
    (h : leafReason env expected p e = some m) : m ≠ [] := by
  have hl : lossText ≠ [] ∧ base64Text ≠ [] ∧ ∀ s, timeText ++ s ≠ [] ∧ dateText ++ s ≠ [] ∧ enumText ++ s ≠ [] := by
    simp [lossText, base64Text, timeText, dateText, enumText, lit]
  have ht := tokenFail_ne expected
  cases p with
  | null => cases e <;> simp only [leafReason, Option.some.injEq, reduceCtorEq] at h <;> exact h ▸ ht _
  | bool => cases e <;> simp only [leafReason, Option.some.injEq, reduceCtorEq] at h <;> exact h ▸ ht _
  | str => cases e <;> simp only [leafReason, Option.some.injEq, reduceCtorEq] at h <;> exact h ▸ ht _
  | int t =>
      cases e <;> simp only [leafReason, numReason, Option.some.injEq] at h
      case num n => split at h <;> cases h; exact hl.1
      all_goals exact h ▸ ht _
  | flt t =>
      cases e <;> simp only [leafReason, numReason, Option.some.injEq] at h
      case num n => split at h <;> cases h; exact hl.1
      all_goals exact h ▸ ht _
  | enumInt t =>
      cases e with
      | num n =>
          cases n with
          | int v => simp only [leafReason, numReason] at h; split at h <;> cases h; exact hl.1
          | dbl d => simp only [leafReason, Option.some.injEq] at h; exact h ▸ ht _
      | _ => simp only [leafReason, Option.some.injEq] at h; exact h ▸ ht _
  | bytes =>
      cases e <;> simp only [leafReason, Option.some.injEq] at h
      case str s => split at h <;> cases h; exact hl.2.1
      all_goals exact h ▸ ht _
  | time =>
      cases e <;> simp only [leafReason, Option.some.injEq] at h
      case str s => split at h <;> cases h; exact (hl.2.2 s).1
      all_goals exact h ▸ ht _
  | date =>
      cases e <;> simp only [leafReason, Option.some.injEq] at h
      case str s => split at h <;> cases h; exact (hl.2.2 s).2.1
      all_goals exact h ▸ ht _
  | enumStr table =>
      cases e <;> simp only [leafReason, Option.some.injEq] at h
      case str s => split at h <;> cases h; exact (hl.2.2 s).2.2
      all_goals exact h ▸ ht _

/-- The message of an event that is refused is there and not empty; an event that is accepted leaves none. -/
def Explained : POut → Option Str → Prop
  | .fail, r => ∃ m, r = some m ∧ m ≠ []
  | .go _, r => r = none
  | _, _ => True

theorem explained_leaf {env : Env} {expected : List Token} {p : Prim} {e : Event} (k : PVal → POut) (hk : ∀ pv, ∃ s, k pv = .go s) :
    Explained (match leafParse env p e with | .ub => .ub | .fail => .fail | .ok pv => k pv) (leafReason env expected p e) := by
  have h := leafReason_isSome env expected p e
  cases hp : leafParse env p e with
  | ub => trivial
  | fail =>
      rw [hp] at h
      obtain ⟨m, hm⟩ := Option.isSome_iff_exists.mp (h.mp rfl)
      exact ⟨m, hm, leafReason_ne env expected p e m hm⟩
  | ok pv =>
      rw [hp] at h
      obtain ⟨s, hs⟩ := hk pv
      show Explained (k pv) _
      rw [hs]
      show _ = none
      cases hr : leafReason env expected p e with
      | none => rfl
      | some m => rw [hr] at h; simp at h

theorem explained_replace {host : Host} {f : Frame} {rest : List Frame} {fin : Option Val} {n : Nat} {c : HClass} {h : Handler} :
    Explained (replaceTop host f rest fin n c h) none := by
  unfold replaceTop
  split <;> trivial

/-- The same for an opening handler. -/
theorem explained_open {env : Env} {host : Host} {G : Nat → Prop} (f : Frame) (rest : List Frame) (fin : Option Val) (n : Nat)
    (e : Event) (hc : f.handler.compiles G) (ho : f.handler.isOpen = true) :
    Explained (openStep env host f rest fin n e) (openReason env f.handler e) := by
  unfold openStep openReason
  cases hh : f.handler with
  | leaf p v =>
      refine explained_leaf (env := env) (p := p) (e := e) (fun pv => if p.stays then _ else _) ?_
      intro pv
      show ∃ s, (if p.stays = true then _ else _) = _
      split <;> exact ⟨_, rfl⟩
  | unsupported v => rw [hh] at hc; exact hc.elim
  | vecStart t vs => cases e <;> first | exact explained_replace | exact ⟨_, rfl, tokenFail_ne _ _⟩
  | setStart t vs => cases e <;> first | exact explained_replace | exact ⟨_, rfl, tokenFail_ne _ _⟩
  | fixStart C ts vs => cases e <;> first | exact explained_replace | exact ⟨_, rfl, tokenFail_ne _ _⟩
  | mapStart C t vs => cases e <;> first | exact explained_replace | exact ⟨_, rfl, tokenFail_ne _ _⟩
  | objStart c vs => cases e <;> first | exact explained_replace | exact ⟨_, rfl, tokenFail_ne _ _⟩
  | vecItems _ _ => rw [hh] at ho; simp [Handler.isOpen] at ho
  | setItems _ _ _ => rw [hh] at ho; simp [Handler.isOpen] at ho
  | fixItems _ _ _ _ => rw [hh] at ho; simp [Handler.isOpen] at ho
  | mapItems _ _ _ => rw [hh] at ho; simp [Handler.isOpen] at ho
  | objItems _ _ => rw [hh] at ho; simp [Handler.isOpen] at ho

theorem explained_emplace_open {env : Env} {host : Host} {G : Nat → Prop} (hG : CompilesClasses env G) {rest : List Frame}
    {fin : Option Val} {n : Nat} {c : HClass} {t : Ty} {v : Val} {l : Link} {o : Val → Val} {e : Event} (ht : Compiles G t) :
    Explained (emplaceP env host rest n c t v l o fun g n => openStep env host g rest fin n e) (openReason env (openP env t v n).1 e) := by
  unfold emplaceP
  split
  · have h := openP_compiles hG t v n ht
    exact explained_open ⟨c, (openP env t v n).1, l, _⟩ rest fin _ e h.1 h.2
  · trivial

theorem explained_emplace {env : Env} {host : Host} {rest : List Frame}
    {n : Nat} {c : HClass} {t : Ty} {v : Val} {l : Link} {o : Val → Val} (k : Frame → Nat → PState) :
    Explained (emplaceP env host rest n c t v l o fun g n => .go (k g n)) none := by
  unfold emplaceP
  split <;> trivial

theorem explained_step {env : Env} {host : Host} {G : Nat → Prop} (hG : CompilesClasses env G) (s : PState) (e : Event)
    (hs : s.compiles G) : Explained (pstep env host s e) (reason env host s e) := by
  obtain ⟨st, fin, n⟩ := s
  cases st with
  | nil => trivial
  | cons f rest =>
      obtain ⟨c, h, l, w⟩ := f
      have hc : h.compiles G := hs ⟨c, h, l, w⟩ (by simp)
      cases h with
      | vecItems t vs =>
          simp only [pstep, reason, itemReason]
          cases e
          case endArr => rfl
          all_goals
            cases hd : direct t with
            | some p => exact explained_leaf _ (fun pv => ⟨_, rfl⟩)
            | none =>
                simp only
                split
                · exact explained_emplace_open hG hc
                · exact ⟨_, rfl, tokenFail_ne _ _⟩
      | setItems t st vs =>
          simp only [pstep, reason, itemReason]
          cases e
          case endArr => rfl
          all_goals
            cases hd : direct t with
            | some p => exact explained_leaf _ (fun pv => ⟨_, rfl⟩)
            | none =>
                simp only
                split
                · exact explained_emplace_open hG hc
                · exact ⟨_, rfl, tokenFail_ne _ _⟩
      | fixItems C ts i vs =>
          simp only [pstep, reason]
          cases ht : ts[i]? with
          | none => cases e <;> first | rfl | exact ⟨_, rfl, tokenFail_ne _ _⟩
          | some t =>
              simp only
              split
              · split
                · exact explained_emplace_open hG (CompilesAll_get hc ht)
                · trivial
              · exact ⟨_, rfl, tokenFail_ne _ _⟩
      | mapItems C t kvs =>
          cases e
          case key k =>
            simp only [pstep, reason]
            exact explained_emplace (fun g n => ⟨g :: _ :: rest, fin, n⟩)
          case endObj => rfl
          all_goals exact ⟨_, rfl, tokenFail_ne _ _⟩
      | objItems c vs =>
          cases e
          case key k =>
            simp only [pstep, reason]
            cases selectMember env host c k with
            | reject => exact ⟨_, rfl, by simp [memberText, lit]⟩
            | memoryError => trivial
            | member i =>
                simp only
                split
                · trivial
                · split <;> exact explained_emplace _
          case endObj => rfl
          all_goals exact ⟨_, rfl, tokenFail_ne _ _⟩
      | leaf p v => exact explained_open (env := env) (host := host) ⟨c, _, l, w⟩ rest fin n e hc rfl
      | vecStart t v => exact explained_open (env := env) (host := host) ⟨c, _, l, w⟩ rest fin n e hc rfl
      | setStart t v => exact explained_open (env := env) (host := host) ⟨c, _, l, w⟩ rest fin n e hc rfl
      | fixStart C t v => exact explained_open (env := env) (host := host) ⟨c, _, l, w⟩ rest fin n e hc rfl
      | mapStart C t v => exact explained_open (env := env) (host := host) ⟨c, _, l, w⟩ rest fin n e hc rfl
      | objStart C v => exact explained_open (env := env) (host := host) ⟨c, _, l, w⟩ rest fin n e hc rfl
      | unsupported v => exact hc.elim

/-! The types of the handlers on the stack compile. -/

theorem plug_compiles {G : Nat → Prop} {h : Handler} (l : Link) (v : Val) (hc : h.compiles G) : (plug h l v).compiles G := by
  cases h <;> cases l <;> exact hc

theorem popTo_compiles {G : Nat → Prop} {rest : List Frame} (hr : ∀ f ∈ rest, f.handler.compiles G) (w : Val → Val) (l : Link)
    (v : Val) (fin : Option Val) (n : Nat) : (popTo w l v rest fin n).compiles G := by
  cases rest with
  | nil => intro f hf; simp [popTo] at hf
  | cons p rest =>
      intro f hf
      simp only [popTo, List.mem_cons] at hf
      rcases hf with rfl | hf
      · exact plug_compiles _ _ (hr p (by simp))
      · exact hr f (by simp [hf])

/-- A state that is reached has handlers that compile. -/
def GoodOut (G : Nat → Prop) : POut → Prop
  | .go s => s.compiles G
  | _ => True

theorem cons_compiles {G : Nat → Prop} {f : Frame} {rest : List Frame} {fin : Option Val} {n : Nat} (hf : f.handler.compiles G)
    (hr : ∀ f ∈ rest, f.handler.compiles G) : PState.compiles G ⟨f :: rest, fin, n⟩ := by
  intro g hg
  rcases List.mem_cons.mp hg with rfl | hg
  · exact hf
  · exact hr g hg

theorem good_replace {G : Nat → Prop} {host : Host} {f : Frame} {rest : List Frame} {fin : Option Val} {n : Nat} {c : HClass}
    {h : Handler} (hf : h.compiles G) (hr : ∀ f ∈ rest, f.handler.compiles G) : GoodOut G (replaceTop host f rest fin n c h) := by
  unfold replaceTop
  split
  · exact cons_compiles hf hr
  · trivial

theorem good_open {env : Env} {host : Host} {G : Nat → Prop} (f : Frame) (rest : List Frame) (fin : Option Val) (n : Nat)
    (e : Event) (hc : f.handler.compiles G) (hr : ∀ f ∈ rest, f.handler.compiles G) :
    GoodOut G (openStep env host f rest fin n e) := by
  unfold openStep
  cases hh : f.handler with
  | leaf p v =>
      simp only
      split
      · trivial
      · trivial
      · split
        · exact cons_compiles trivial hr
        · exact popTo_compiles hr _ _ _ _ _
  | vecStart t vs => rw [hh] at hc; cases e <;> first | exact good_replace hc hr | trivial
  | setStart t vs => rw [hh] at hc; cases e <;> first | exact good_replace hc hr | trivial
  | fixStart C ts vs => rw [hh] at hc; cases e <;> first | exact good_replace hc hr | trivial
  | mapStart C t vs => rw [hh] at hc; cases e <;> first | exact good_replace hc hr | trivial
  | objStart c vs => rw [hh] at hc; cases e <;> first | exact good_replace hc hr | trivial
  | _ => trivial

theorem good_emplace {env : Env} {host : Host} {G : Nat → Prop} (hG : CompilesClasses env G) {rest : List Frame}
    {n : Nat} {c : HClass} {t : Ty} {v : Val} {l : Link} {o : Val → Val} {k : Frame → Nat → POut} (ht : Compiles G t)
    (hk : ∀ f n, f.handler.compiles G → GoodOut G (k f n)) : GoodOut G (emplaceP env host rest n c t v l o k) := by
  unfold emplaceP
  split
  · exact hk _ _ (openP_compiles hG t v n ht).1
  · trivial

theorem good_step {env : Env} {host : Host} {G : Nat → Prop} (hG : CompilesClasses env G) (s : PState) (e : Event)
    (hs : s.compiles G) : GoodOut G (pstep env host s e) := by
  obtain ⟨st, fin, n⟩ := s
  cases st with
  | nil => trivial
  | cons f rest =>
      obtain ⟨c, h, l, w⟩ := f
      have hc : h.compiles G := hs ⟨c, h, l, w⟩ (by simp)
      have hr : ∀ f ∈ rest, f.handler.compiles G := fun f hf => hs f (by simp [hf])
      cases h with
      | vecItems t vs =>
          simp only [pstep]
          cases e
          case endArr => exact popTo_compiles hr _ _ _ _ _
          all_goals
            cases hd : direct t with
            | some p =>
                simp only
                split
                · trivial
                · trivial
                · exact cons_compiles hc hr
            | none =>
                simp only
                split
                · exact good_emplace hG hc (fun f n hf => good_open f _ _ n _ hf hs)
                · trivial
      | setItems t st vs =>
          simp only [pstep]
          cases e
          case endArr => exact popTo_compiles hr _ _ _ _ _
          all_goals
            cases hd : direct t with
            | some p =>
                simp only
                split
                · trivial
                · trivial
                · exact cons_compiles hc hr
            | none =>
                simp only
                split
                · exact good_emplace hG hc (fun f n hf => good_open f _ _ n _ hf hs)
                · trivial
      | fixItems C ts i vs =>
          simp only [pstep]
          cases ht : ts[i]? with
          | none => cases e <;> first | exact popTo_compiles hr _ _ _ _ _ | trivial
          | some t =>
              simp only
              split
              · split
                · exact good_emplace hG (CompilesAll_get hc ht) (fun f n hf => good_open f _ _ n _ hf (by
                    intro g hg
                    rcases List.mem_cons.mp hg with rfl | hg
                    · exact hc
                    · exact hr g hg))
                · trivial
              · trivial
      | mapItems C t kvs =>
          cases e
          case key k =>
            simp only [pstep]
            exact good_emplace hG hc (fun f n hf => cons_compiles hf hs)
          case endObj => exact popTo_compiles hr _ _ _ _ _
          all_goals trivial
      | objItems c vs =>
          cases e
          case key k =>
            simp only [pstep]
            cases selectMember env host c k with
            | reject => trivial
            | memoryError => trivial
            | member i =>
                simp only
                split
                · trivial
                · rename_i m hm
                  have hmem : m ∈ env.members c := List.mem_of_getElem? hm
                  have ht := (hG c hc).2 m hmem
                  split <;> exact good_emplace hG ht (fun f n hf => cons_compiles hf hs)
          case endObj => exact popTo_compiles hr _ _ _ _ _
          all_goals trivial
      | leaf p v => exact good_open (env := env) (host := host) ⟨c, _, l, w⟩ rest fin n e hc hr
      | vecStart t v => exact good_open (env := env) (host := host) ⟨c, _, l, w⟩ rest fin n e hc hr
      | setStart t v => exact good_open (env := env) (host := host) ⟨c, _, l, w⟩ rest fin n e hc hr
      | fixStart C t v => exact good_open (env := env) (host := host) ⟨c, _, l, w⟩ rest fin n e hc hr
      | mapStart C t v => exact good_open (env := env) (host := host) ⟨c, _, l, w⟩ rest fin n e hc hr
      | objStart C v => exact good_open (env := env) (host := host) ⟨c, _, l, w⟩ rest fin n e hc hr
      | unsupported v => exact hc.elim

theorem start_compiles {env : Env} {G : Nat → Prop} (hG : CompilesClasses env G) {t : Ty} (ht : Compiles G t) (v : Val) (n : Nat) :
    (start env t v n).compiles G := by
  intro f hf
  simp only [start, List.mem_singleton] at hf
  rw [hf]
  exact (openP_compiles hG t v n ht).1

/-- Events that are all accepted leave the message as it is. -/
theorem errorAfter_go {env : Env} {host : Host} {G : Nat → Prop} (hG : CompilesClasses env G) :
    ∀ (es : List Event) (s s' : PState) (m : Str), s.compiles G → prun env host s es = .go s' → errorAfter env host s es m = m
  | [], _, _, _, _, _ => rfl
  | e :: es, s, s', m, hs, h => by
      have hx := explained_step (host := host) hG s e hs
      have hg := good_step (host := host) hG s e hs
      simp only [prun] at h
      cases hp : pstep env host s e with
      | go s1 =>
          rw [hp] at h hx hg
          have hr : reason env host s e = none := hx
          simp only [errorAfter, hp, hr, Option.getD_none]
          exact errorAfter_go hG es s1 s' m hg h
      | _ => rw [hp] at h; cases h

/-- A refusal: the first event that is refused, and its message. -/
theorem errorAfter_fail {env : Env} {host : Host} {G : Nat → Prop} (hG : CompilesClasses env G) :
    ∀ (es : List Event) (s : PState) (m : Str), s.compiles G → prun env host s es = .fail →
      ∃ before e rest s' why, es = before ++ e :: rest ∧ prun env host s before = .go s' ∧ pstep env host s' e = .fail ∧
        reason env host s' e = some why ∧ why ≠ [] ∧ errorAfter env host s es m = why
  | [], _, _, _, h => by cases h
  | e :: es, s, m, hs, h => by
      have hx := explained_step (host := host) hG s e hs
      have hg := good_step (host := host) hG s e hs
      simp only [prun] at h
      cases hp : pstep env host s e with
      | go s1 =>
          rw [hp] at h hx hg
          have hr : reason env host s e = none := hx
          obtain ⟨before, e', rest, s', why, h1, h2, h3, h4, h5, h6⟩ := errorAfter_fail hG es s1 m hg h
          refine ⟨e :: before, e', rest, s', why, by rw [h1]; rfl, by simp only [prun, hp]; exact h2, h3, h4, h5, ?_⟩
          simp only [errorAfter, hp, hr, Option.getD_none]
          exact h6
      | fail =>
          rw [hp] at hx
          obtain ⟨why, hw, hne⟩ := hx
          exact ⟨[], e, es, s, why, rfl, rfl, hp, hw, hne, by simp only [errorAfter, hp, hw, Option.getD_some]⟩
      | _ => rw [hp] at h; cases h

/-! ## The tokens named as expected -/

/-- The template arguments of the base class `JsonParseHandler` of a handler: parse_fundamental.hpp:10, 31, 83;
parse_string.hpp:8; parse_bytes.hpp:8; parse_datetime.hpp:9; parse_date.hpp:12; parse_enum.hpp:15, 80, 110;
parse_items.hpp:8; parse_vector.hpp:43, 72, 201, 225; parse_set.hpp:52, 81, 210, 234; parse_array.hpp:9, 103, 122;
parse_map.hpp:9, 37; parse_object.hpp:87, 123, 165, 225. -/
def Handler.expected : Handler → List Token
  | .leaf p _ => [p.token]
  | .vecStart _ _ | .setStart _ _ | .fixStart _ _ _ => [.startArr]
  | .mapStart _ _ _ | .objStart _ _ => [.startObj]
  | .vecItems t _ | .setItems t _ _ => [t.token, .endArr]
  | .fixItems _ ts i _ => (match ts[i]? with | none => [.endArr] | some t => [t.token])
  | .mapItems _ _ _ | .objItems _ _ => [.key, .endObj]
  | .unsupported _ => []

theorem leaf_unexpected (env : Env) (expected : List Token) (p : Prim) (e : Event) (h : e.token ≠ p.token) :
    leafParse env p e = .fail ∧ leafReason env expected p e = some (tokenFail expected e.token) := by
  cases p <;> cases e <;> first | exact ⟨rfl, rfl⟩ | exact absurd rfl h

theorem openP_expected {env : Env} {G : Nat → Prop} (hG : CompilesClasses env G) :
    ∀ (t : Ty) (v : Val) (n : Nat), Compiles G t → (openP env t v n).1.expected = [t.token]
  | .prim p, _, _, _ => rfl
  | .vec t, _, _, _ => rfl
  | .arr k t, _, _, _ => rfl
  | .set t, _, _, _ => rfl
  | .map o t, _, _, _ => rfl
  | .dict t, _, _, _ => rfl
  | .tuple ts, _, _, _ => rfl
  | .variant ts, _, _, h => by simp [Compiles] at h
  | .cls c, _, _, h => by
      have hc : G c := by simpa [Compiles] using h
      simp [openP, (hG c hc).1, Handler.expected, Ty.token]
  | .uptr t, _, n, h => openP_expected hG t _ n (by simpa [Compiles] using h)
  | .sptr t, _, n, h => openP_expected hG t _ (n + 1) (by simpa [Compiles] using h)

theorem open_unexpected {env : Env} {host : Host} {G : Nat → Prop} (f : Frame) (rest : List Frame) (fin : Option Val) (n : Nat)
    (e : Event) (hc : f.handler.compiles G) (ho : f.handler.isOpen = true) (h : e.token ∉ f.handler.expected) :
    openStep env host f rest fin n e = .fail ∧ openReason env f.handler e = some (tokenFail f.handler.expected e.token) := by
  obtain ⟨c, hd, l, w⟩ := f
  cases hd with
  | leaf p v =>
      have hl := leaf_unexpected env [p.token] p e (by simpa [Handler.expected] using h)
      simp only [openStep, openReason, Handler.expected, hl, and_self]
  | unsupported v => exact hc.elim
  | vecItems _ _ => cases ho
  | setItems _ _ _ => cases ho
  | fixItems _ _ _ _ => cases ho
  | mapItems _ _ _ => cases ho
  | objItems _ _ => cases ho
  | _ => cases e <;> first | exact ⟨rfl, rfl⟩ | exact absurd (List.mem_singleton.mpr rfl) h

theorem direct_token {t : Ty} {p : Prim} (h : direct t = some p) : p.token = t.token := by
  cases t with
  | prim q =>
      cases q <;> simp only [direct, Option.some.injEq, reduceCtorEq] at h
      case int u => split at h <;> cases h; rfl
      all_goals subst h; rfl
  | _ => cases h

theorem isToken_token : ∀ {t : Ty} {e : Event}, isToken t e = true → e.token = t.token
  | .prim p, e, h => by cases p <;> cases e <;> first | rfl | cases h
  | .vec t, e, h => by cases e <;> first | rfl | cases h
  | .arr k t, e, h => by cases e <;> first | rfl | cases h
  | .set t, e, h => by cases e <;> first | rfl | cases h
  | .map o t, e, h => by cases e <;> first | rfl | cases h
  | .dict t, e, h => by cases e <;> first | rfl | cases h
  | .tuple ts, e, h => by cases e <;> first | rfl | cases h
  | .variant ts, e, h => by cases h
  | .cls c, e, h => by cases e <;> first | rfl | cases h
  | .uptr t, e, h => isToken_token (t := t) h
  | .sptr t, e, h => isToken_token (t := t) h

theorem item_unexpected (env : Env) (t : Ty) (n : Nat) (e : Event) (h : e.token ∉ [t.token, .endArr]) :
    itemReason env t n e = some (tokenFail [t.token, .endArr] e.token) ∧
      (∀ p, direct t = some p → leafParse env p e = .fail) ∧ isToken t e = false := by
  have h1 : e.token ≠ t.token := fun hh => h (by simp [hh])
  have h2 : ∀ p, direct t = some p → leafParse env p e = .fail :=
    fun p hp => (leaf_unexpected env [] p e (by rw [direct_token hp]; exact h1)).1
  have h3 : isToken t e = false := by
    cases hh : isToken t e with
    | false => rfl
    | true => exact absurd (isToken_token hh) h1
  refine ⟨?_, h2, h3⟩
  unfold itemReason
  split
  · exact absurd (by simp [Event.token]) h
  · split
    · rename_i p hp
      exact (leaf_unexpected env _ p e (by rw [direct_token hp]; exact h1)).2
    · simp [h3]

/-- A token that is not among the expected ones is refused, and the message says so; only the handler stack of a
tuple may throw before. -/
theorem step_unexpected {env : Env} {host : Host} {G : Nat → Prop} (hG : CompilesClasses env G) (f : Frame) (rest : List Frame)
    (fin : Option Val) (n : Nat) (e : Event) (hs : PState.compiles G ⟨f :: rest, fin, n⟩) (h : e.token ∉ f.handler.expected) :
    (pstep env host ⟨f :: rest, fin, n⟩ e = .fail ∨ pstep env host ⟨f :: rest, fin, n⟩ e = .threw) ∧
      reason env host ⟨f :: rest, fin, n⟩ e = some (tokenFail f.handler.expected e.token) := by
  have hc : f.handler.compiles G := hs f (by simp)
  obtain ⟨c, hd, l, w⟩ := f
  cases hd with
  | vecItems t vs =>
      have hi := item_unexpected env t n e h
      refine ⟨Or.inl ?_, hi.1⟩
      simp only [pstep]
      split
      · exact absurd (by simp [Event.token, Handler.expected]) h
      · split
        · rename_i p hp
          rw [hi.2.1 p hp]
        · simp [hi.2.2]
  | setItems t st vs =>
      have hi := item_unexpected env t n e h
      refine ⟨Or.inl ?_, hi.1⟩
      simp only [pstep]
      split
      · exact absurd (by simp [Event.token, Handler.expected]) h
      · split
        · rename_i p hp
          rw [hi.2.1 p hp]
        · simp [hi.2.2]
  | fixItems C ts i vs =>
      simp only [pstep, reason, Handler.expected] at h ⊢
      cases ht : ts[i]? with
      | none =>
          rw [ht] at h
          cases e <;> first | exact ⟨Or.inl rfl, rfl⟩ | exact absurd (List.mem_singleton.mpr rfl) h
      | some t =>
          rw [ht] at h
          have hct := CompilesAll_get hc ht
          simp only
          split
          · have ho := openP_compiles hG t (vs.getD i (env.ctor t)) n hct
            have hx := openP_expected hG t (vs.getD i (env.ctor t)) n hct
            have hu := fun (f : Frame) (hf : f.handler = (openP env t (vs.getD i (env.ctor t)) n).1) (rest : List Frame) n =>
              open_unexpected (env := env) (host := host) f rest fin n e (hf ▸ ho.1) (hf ▸ ho.2) (by rw [hf, hx]; exact h)
            refine ⟨?_, ?_⟩
            · split
              · unfold emplaceP
                split
                · exact Or.inl (hu _ rfl _ _).1
                · exact Or.inr rfl
              · exact Or.inr rfl
            · have := (hu ⟨c, (openP env t (vs.getD i (env.ctor t)) n).1, l, w⟩ rfl [] 0).2
              rw [this, hx]
          · exact ⟨Or.inl rfl, rfl⟩
  | mapItems C t kvs => cases e <;> first | exact ⟨Or.inl rfl, rfl⟩ | exact absurd (by simp [Handler.expected, Event.token]) h
  | objItems C kvs => cases e <;> first | exact ⟨Or.inl rfl, rfl⟩ | exact absurd (by simp [Handler.expected, Event.token]) h
  | leaf p v => exact (open_unexpected (env := env) (host := host) ⟨c, _, l, w⟩ rest fin n e hc rfl h).imp_left Or.inl
  | vecStart t v => exact (open_unexpected (env := env) (host := host) ⟨c, _, l, w⟩ rest fin n e hc rfl h).imp_left Or.inl
  | setStart t v => exact (open_unexpected (env := env) (host := host) ⟨c, _, l, w⟩ rest fin n e hc rfl h).imp_left Or.inl
  | fixStart C t v => exact (open_unexpected (env := env) (host := host) ⟨c, _, l, w⟩ rest fin n e hc rfl h).imp_left Or.inl
  | mapStart C t v => exact (open_unexpected (env := env) (host := host) ⟨c, _, l, w⟩ rest fin n e hc rfl h).imp_left Or.inl
  | objStart C v => exact (open_unexpected (env := env) (host := host) ⟨c, _, l, w⟩ rest fin n e hc rfl h).imp_left Or.inl
  | unsupported v => exact hc.elim

/-! ## Expected tokens are accepted -/

/-- Not an enumeration all of whose names are refused because there are none. -/
def Prim.named : Prim → Bool
  | .enumStr [] => false
  | _ => true

/-- The same for the type of a value; containers accept their opening token in any case. -/
def Ty.named : Ty → Bool
  | .prim p => p.named
  | .uptr t => t.named
  | .sptr t => t.named
  | _ => true

/-- Handlers whose base class tells the truth: no vectors and sets of characters, of enumerations without names, or of
pointers to numbers (see `Ty.element`), and no enumerations without any value. -/
def Handler.truthful : Handler → Bool
  | .leaf p _ => p.named
  | .vecItems t _ | .setItems t _ _ => t.element && t.named
  | .fixItems _ ts i _ => (match ts[i]? with | none => true | some t => t.named)
  | _ => true

theorem parseDatetime_epoch (clk : Nat) : DateTime.parseDatetime clk (lit "1970-01-01T00:00:00Z") ≠ .rejected := by
  have h : DateTime.parseDatetime clk (lit "1970-01-01T00:00:00Z") = .of (DateTime.makeDatetime clk 1970 1 1 0 0 0) := by
    unfold DateTime.parseDatetime
    rw [if_neg (by decide +kernel), if_neg (by decide +kernel)]
    rw [show fromDigits (DateTime.sub (lit "1970-01-01T00:00:00Z") 0 4) = some 1970 by decide +kernel,
      show fromDigits (DateTime.sub (lit "1970-01-01T00:00:00Z") 5 7) = some 1 by decide +kernel,
      show fromDigits (DateTime.sub (lit "1970-01-01T00:00:00Z") 8 10) = some 1 by decide +kernel,
      show fromDigits (DateTime.sub (lit "1970-01-01T00:00:00Z") 11 13) = some 0 by decide +kernel,
      show fromDigits (DateTime.sub (lit "1970-01-01T00:00:00Z") 14 16) = some 0 by decide +kernel,
      show fromDigits (DateTime.sub (lit "1970-01-01T00:00:00Z") 17 19) = some 0 by decide +kernel]
    simp only
    rw [if_neg (by decide +kernel), if_neg (by decide +kernel)]
  rw [h]
  cases DateTime.makeDatetime clk 1970 1 1 0 0 0 <;> simp [DateTime.Parsed.of]

theorem readDate_of {clk : Nat} {s : Str} {x : Option Int} (h : DateTime.parseDate clk s = .of x) : DateTime.readDate clk s ≠ .rejected := by
  unfold DateTime.readDate
  rw [h]
  cases x <;> simp [DateTime.Parsed.of]

theorem readDate_epoch (clk : Nat) : DateTime.readDate clk (lit "1970-01-01") ≠ .rejected := by
  have h : DateTime.parseDate clk (lit "1970-01-01") = .of (DateTime.makeDatetime clk 1970 1 1 0 0 0) := by
    unfold DateTime.parseDate
    rw [if_neg (by decide +kernel), if_neg (by decide +kernel)]
    rw [show fromDigits (DateTime.sub (lit "1970-01-01") 0 4) = some 1970 by decide +kernel,
      show fromDigits (DateTime.sub (lit "1970-01-01") 5 7) = some 1 by decide +kernel,
      show fromDigits (DateTime.sub (lit "1970-01-01") 8 10) = some 1 by decide +kernel]
    simp only
    rw [if_pos (by decide +kernel)]
  exact readDate_of h

theorem leafParse_time {env : Env} {s : Str} (h : leafParse env .time (.str s) = .fail) : DateTime.parseDatetime env.clk s = .rejected := by
  simp only [leafParse] at h
  split at h <;> first | assumption | cases h

theorem leafParse_date {env : Env} {s : Str} (h : leafParse env .date (.str s) = .fail) : DateTime.readDate env.clk s = .rejected := by
  simp only [leafParse] at h
  split at h <;> first | assumption | cases h

theorem leaf_accepts (env : Env) (p : Prim) (hp : p.named = true) : ∃ e : Event, e.token = p.token ∧ leafParse env p e ≠ .fail := by
  cases p with
  | null => exact ⟨.null, rfl, by simp [leafParse]⟩
  | bool => exact ⟨.bool true, rfl, by simp [leafParse]⟩
  | str => exact ⟨.str [], rfl, by simp [leafParse]⟩
  | int t => exact ⟨.num (.int 0), rfl, by obtain ⟨w, sg⟩ := t; show numParse _ _ ≠ _; cases w <;> cases sg <;> decide⟩
  | flt t => exact ⟨.num (.int 0), rfl, by show numParse _ _ ≠ _; cases t <;> decide⟩
  | enumInt t => exact ⟨.num (.int 0), rfl, by obtain ⟨w, sg⟩ := t; show numParse _ _ ≠ _; cases w <;> cases sg <;> decide⟩
  | bytes => exact ⟨.str [], rfl, by simp [leafParse, show Base64.decode [] = some [] from by decide]⟩
  | time => exact ⟨.str (lit "1970-01-01T00:00:00Z"), rfl, fun h => parseDatetime_epoch env.clk (leafParse_time h)⟩
  | date => exact ⟨.str (lit "1970-01-01"), rfl, fun h => readDate_epoch env.clk (leafParse_date h)⟩
  | enumStr table =>
      cases table with
      | nil => cases hp
      | cons a table => exact ⟨.str a.2, rfl, by simp [leafParse, enumValue]⟩

theorem replaceTop_ne (host : Host) (f : Frame) (rest : List Frame) (fin : Option Val) (n : Nat) (c : HClass) (h : Handler) :
    replaceTop host f rest fin n c h ≠ .fail := by
  unfold replaceTop
  split <;> simp

theorem open_accepts_leaf (env : Env) (host : Host) (f : Frame) (p : Prim) (v : Val) (rest : List Frame) (fin : Option Val) (n : Nat)
    (e : Event) (hf : f.handler = .leaf p v) (h : leafParse env p e ≠ .fail) : openStep env host f rest fin n e ≠ .fail := by
  unfold openStep
  rw [hf]
  simp only
  split
  · simp
  · rename_i hh; exact absurd hh h
  · split <;> simp

/-- A new handler for a type accepts some token of its type. -/
theorem open_accepts {env : Env} {G : Nat → Prop} (hG : CompilesClasses env G) :
    ∀ (t : Ty) (v : Val) (n : Nat), Compiles G t → t.named = true →
      ∃ e : Event, e.token = t.token ∧ (t.numeric = false → isToken t e = true) ∧
        ∀ (host : Host) (f : Frame) (rest : List Frame) (fin : Option Val) (m : Nat), f.handler = (openP env t v n).1 →
          openStep env host f rest fin m e ≠ .fail
  | .prim p, v, n, _, hn => by
      obtain ⟨e, he, hl⟩ := leaf_accepts env p hn
      refine ⟨e, he, ?_, fun host f rest fin m hf => open_accepts_leaf env host f p v rest fin m e hf hl⟩
      intro hnum
      cases p <;> cases e <;> first | cases hnum; done | cases he; done | rfl
  | .vec t, _, _, _, _ => ⟨.startArr, rfl, fun _ => rfl, fun host f rest fin m hf => by
      unfold openStep; rw [hf]; exact replaceTop_ne _ _ _ _ _ _ _⟩
  | .arr k t, _, _, _, _ => ⟨.startArr, rfl, fun _ => rfl, fun host f rest fin m hf => by
      unfold openStep; rw [hf]; exact replaceTop_ne _ _ _ _ _ _ _⟩
  | .set t, _, _, _, _ => ⟨.startArr, rfl, fun _ => rfl, fun host f rest fin m hf => by
      unfold openStep; rw [hf]; exact replaceTop_ne _ _ _ _ _ _ _⟩
  | .map o t, _, _, _, _ => ⟨.startObj, rfl, fun _ => rfl, fun host f rest fin m hf => by
      unfold openStep; rw [hf]; exact replaceTop_ne _ _ _ _ _ _ _⟩
  | .dict t, _, _, _, _ => ⟨.startArr, rfl, fun _ => rfl, fun host f rest fin m hf => by
      unfold openStep; rw [hf]; exact replaceTop_ne _ _ _ _ _ _ _⟩
  | .tuple ts, _, _, _, _ => ⟨.startArr, rfl, fun _ => rfl, fun host f rest fin m hf => by
      unfold openStep; rw [hf]; exact replaceTop_ne _ _ _ _ _ _ _⟩
  | .variant ts, _, _, h, _ => by simp [Compiles] at h
  | .cls c, v, n, h, _ => ⟨.startObj, rfl, fun _ => rfl, fun host f rest fin m hf => by
      have hc : G c := by simpa [Compiles] using h
      unfold openStep; rw [hf]
      simp only [openP, (hG c hc).1, if_false]
      exact replaceTop_ne _ _ _ _ _ _ _⟩
  | .uptr t, _, n, h, hn => by
      obtain ⟨e, h1, h2, h3⟩ := open_accepts hG t (env.ctor t) n (by simpa [Compiles] using h) hn
      exact ⟨e, h1, h2, fun host f rest fin m hf => h3 host f rest fin m hf⟩
  | .sptr t, _, n, h, hn => by
      obtain ⟨e, h1, h2, h3⟩ := open_accepts hG t (env.ctor t) (n + 1) (by simpa [Compiles] using h) hn
      exact ⟨e, h1, h2, fun host f rest fin m hf => h3 host f rest fin m hf⟩

theorem emplaceP_ne {env : Env} {host : Host} {rest : List Frame} {n : Nat} {c : HClass} {t : Ty} {v : Val} {l : Link} {o : Val → Val}
    {k : Frame → Nat → POut} (hk : ∀ f n', f.handler = (openP env t v n).1 → k f n' ≠ .fail) :
    emplaceP env host rest n c t v l o k ≠ .fail := by
  unfold emplaceP
  split
  · exact hk _ _ rfl
  · simp

theorem startsValue_of_token {e : Event} : ∀ {t : Ty}, e.token = t.token → e.startsValue = true
  | .prim p, h => by cases p <;> cases e <;> first | rfl | cases h
  | .vec t, h => by cases e <;> first | rfl | cases h
  | .arr k t, h => by cases e <;> first | rfl | cases h
  | .set t, h => by cases e <;> first | rfl | cases h
  | .map o t, h => by cases e <;> first | rfl | cases h
  | .dict t, h => by cases e <;> first | rfl | cases h
  | .tuple ts, h => by cases e <;> first | rfl | cases h
  | .variant ts, h => by cases e <;> first | rfl | cases h
  | .cls c, h => by cases e <;> first | rfl | cases h
  | .uptr t, h => startsValue_of_token (t := t) h
  | .sptr t, h => startsValue_of_token (t := t) h

theorem direct_prim {t : Ty} {p : Prim} (h : direct t = some p) : t = .prim p := by
  cases t with
  | prim q =>
      cases q <;> simp only [direct, Option.some.injEq, reduceCtorEq] at h
      case int u => split at h <;> cases h; rfl
      all_goals subst h; rfl
  | _ => cases h

/-- A handler of elements accepts a token of the type of its elements. -/
theorem item_accepts {env : Env} {G : Nat → Prop} (hG : CompilesClasses env G) (t : Ty) (n : Nat) (hc : Compiles G t)
    (he : t.element = true) (hn : t.named = true) : ∃ e : Event, e.token = t.token ∧ e ≠ .endArr ∧
      (∀ p, direct t = some p → leafParse env p e ≠ .fail) ∧ (direct t = none → isToken t e = true) ∧
      ∀ (host : Host) (f : Frame) (rest : List Frame) (fin : Option Val) (m : Nat), f.handler = (openP env t (env.ctor t) n).1 →
        openStep env host f rest fin m e ≠ .fail := by
  obtain ⟨e, h1, h2, h3⟩ := open_accepts hG t (env.ctor t) n hc hn
  have hs := startsValue_of_token h1
  refine ⟨e, h1, (by rintro rfl; cases hs), ?_, ?_, h3⟩
  · intro p hp
    have ht := direct_prim hp
    subst ht
    intro hl
    exact h3 ⟨fun _ => 0, fun _ => 0, false, fun _ => ⟨[], []⟩⟩ ⟨.parser (.prim p), _, .root, id⟩ [] none 0 rfl (by
      simp only [openStep, openP, hl])
  · intro hd
    refine h2 ?_
    simpa [Ty.element, hd] using he

/-- Each token named as expected is accepted in some event. -/
theorem step_accepts {env : Env} {host : Host} {G : Nat → Prop} (hG : CompilesClasses env G) (hsel : Selects env host) (f : Frame)
    (rest : List Frame) (fin : Option Val) (n : Nat) (hc : f.handler.compiles G) (ht : f.handler.truthful = true)
    (x : Token) (hx : x ∈ f.handler.expected) : ∃ e : Event, e.token = x ∧ pstep env host ⟨f :: rest, fin, n⟩ e ≠ .fail := by
  obtain ⟨c, hd, l, w⟩ := f
  cases hd with
  | leaf p v =>
      obtain ⟨e, h1, h2⟩ := leaf_accepts env p ht
      have : x = p.token := by simpa [Handler.expected] using hx
      exact ⟨e, this ▸ h1, open_accepts_leaf env host ⟨c, _, l, w⟩ p v rest fin n e rfl h2⟩
  | vecStart t vs =>
      have : x = .startArr := by simpa [Handler.expected] using hx
      exact ⟨.startArr, this.symm, replaceTop_ne _ _ _ _ _ _ _⟩
  | setStart t vs =>
      have : x = .startArr := by simpa [Handler.expected] using hx
      exact ⟨.startArr, this.symm, replaceTop_ne _ _ _ _ _ _ _⟩
  | fixStart C ts vs =>
      have : x = .startArr := by simpa [Handler.expected] using hx
      exact ⟨.startArr, this.symm, replaceTop_ne _ _ _ _ _ _ _⟩
  | mapStart C t kvs =>
      have : x = .startObj := by simpa [Handler.expected] using hx
      exact ⟨.startObj, this.symm, replaceTop_ne _ _ _ _ _ _ _⟩
  | objStart C vs =>
      have : x = .startObj := by simpa [Handler.expected] using hx
      exact ⟨.startObj, this.symm, replaceTop_ne _ _ _ _ _ _ _⟩
  | vecItems t vs =>
      simp only [Handler.truthful, Bool.and_eq_true] at ht
      simp only [Handler.expected, List.mem_cons, List.not_mem_nil, or_false] at hx
      rcases hx with rfl | rfl
      · obtain ⟨e, h1, h2, h3, h4, h5⟩ := item_accepts hG t n hc ht.1 ht.2
        refine ⟨e, h1, ?_⟩
        cases hd : direct t with
        | some p =>
            have hl := h3 p hd
            cases e with
            | endArr => exact absurd rfl h2
            | _ =>
                simp only [pstep, hd]
                split <;> first | (rename_i hh; exact absurd hh hl) | simp
        | none =>
            have hk := h4 hd
            cases e with
            | endArr => exact absurd rfl h2
            | _ =>
                simp only [pstep, hd, hk, if_true]
                exact emplaceP_ne fun g n' hg => h5 host g _ _ _ hg
      · exact ⟨.endArr, rfl, by simp [pstep]⟩
  | setItems t st vs =>
      simp only [Handler.truthful, Bool.and_eq_true] at ht
      simp only [Handler.expected, List.mem_cons, List.not_mem_nil, or_false] at hx
      rcases hx with rfl | rfl
      · obtain ⟨e, h1, h2, h3, h4, h5⟩ := item_accepts hG t n hc ht.1 ht.2
        refine ⟨e, h1, ?_⟩
        cases hd : direct t with
        | some p =>
            have hl := h3 p hd
            cases e with
            | endArr => exact absurd rfl h2
            | _ =>
                simp only [pstep, hd]
                split <;> first | (rename_i hh; exact absurd hh hl) | simp
        | none =>
            have hk := h4 hd
            cases e with
            | endArr => exact absurd rfl h2
            | _ =>
                simp only [pstep, hd, hk, if_true]
                exact emplaceP_ne fun g n' hg => h5 host g _ _ _ hg
      · exact ⟨.endArr, rfl, by simp [pstep]⟩
  | fixItems C ts i vs =>
      simp only [Handler.truthful, Handler.expected] at ht hx
      cases hi : ts[i]? with
      | none =>
          rw [hi] at hx
          have : x = .endArr := by simpa using hx
          exact ⟨.endArr, this.symm, by simp [pstep, hi]⟩
      | some t =>
          rw [hi] at hx ht
          have hxt : x = t.token := by simpa using hx
          obtain ⟨e, h1, _, h3⟩ := open_accepts hG t (vs.getD i (env.ctor t)) n (CompilesAll_get hc hi) ht
          refine ⟨e, hxt ▸ h1, ?_⟩
          simp only [pstep, hi, startsValue_of_token h1, if_true]
          split
          · exact emplaceP_ne fun g n' hg => h3 host g _ _ _ hg
          · simp
  | mapItems C t kvs =>
      simp only [Handler.expected, List.mem_cons, List.not_mem_nil, or_false] at hx
      rcases hx with rfl | rfl
      · refine ⟨.key [], rfl, ?_⟩
        simp only [pstep]
        exact emplaceP_ne fun g n' hg => by simp
      · exact ⟨.endObj, rfl, by simp [pstep]⟩
  | objItems C vs =>
      simp only [Handler.expected, List.mem_cons, List.not_mem_nil, or_false] at hx
      rcases hx with rfl | rfl
      · have hm := (hG C hc).1
        obtain ⟨m, ms, hms⟩ := List.exists_cons_of_ne_nil hm
        refine ⟨.key m.name, rfl, ?_⟩
        have h0 : memberAt (env.members C) m.name = some 0 := by
          rw [hms]
          simp [memberAt, List.findIdx?_cons]
        have h1 : selectMember env host C m.name = .member 0 := by rw [hsel C hm, h0]
        simp only [pstep, h1, hms, List.getElem?_cons_zero]
        split <;> exact emplaceP_ne fun g n' hg => by simp
      · exact ⟨.endObj, rfl, by simp [pstep]⟩
  | unsupported v => exact hc.elim

/-! ## Messages about the content -/

/-- An enumeration without names, or a pointer to one. -/
def Ty.enumNum : Ty → Bool
  | .prim (.enumInt _) => true
  | .uptr t => t.enumNum
  | .sptr t => t.enumNum
  | _ => false

/-- Handlers that never complain about a token they expect: `truthful`, and not for an enumeration without names. -/
def Handler.consistent : Handler → Bool
  | .leaf (.enumInt _) _ => false
  | .vecItems t _ | .setItems t _ _ => t.element
  | .fixItems _ ts i _ => (match ts[i]? with | none => true | some t => !t.enumNum)
  | _ => true

/-- A message that does not complain about a token. -/
def NotTokenText (r : Option Str) : Prop := ∀ m, r = some m → ∀ expected found, m ≠ tokenFail expected found

theorem notToken_none : NotTokenText none := fun _ h => by cases h

theorem notToken_of_take {m : Str} (h : m.take 10 ≠ lit "expected J") : NotTokenText (some m) := by
  intro m' hm expected found hh
  injection hm with hm
  subst hm
  apply h
  rw [hh]
  simp only [tokenFail, List.append_assoc]
  rw [show lit "expected JSON token: " = lit "expected J" ++ lit "SON token: " by decide, List.append_assoc, List.take_append]
  rw [show (lit "expected J").length = 10 by decide]
  simp [show (lit "expected J").take 10 = lit "expected J" by decide]

theorem leaf_notToken (env : Env) (expected : List Token) (p : Prim) (e : Event) (h : e.token = p.token)
    (hp : ∀ t, p ≠ .enumInt t) : NotTokenText (leafReason env expected p e) := by
  have ht : ∀ (a s : Str), a.length ≥ 10 → a.take 10 ≠ lit "expected J" → NotTokenText (some (a ++ s)) := fun a s h1 h2 =>
    notToken_of_take (by rwa [List.take_append_of_le_length h1])
  cases p with
  | null => cases e <;> first | exact notToken_none | cases h
  | bool => cases e <;> first | exact notToken_none | cases h
  | str => cases e <;> first | exact notToken_none | cases h
  | int t =>
      cases e <;> cases h
      simp only [leafReason, numReason]
      split
      · exact notToken_none
      · exact notToken_of_take (by decide)
  | flt t =>
      cases e <;> cases h
      simp only [leafReason, numReason]
      split
      · exact notToken_none
      · exact notToken_of_take (by decide)
  | enumInt t => exact absurd rfl (hp t)
  | bytes =>
      cases e <;> cases h
      simp only [leafReason]
      split
      · exact notToken_none
      · exact notToken_of_take (by decide)
  | time =>
      cases e <;> cases h
      simp only [leafReason]
      split
      · exact ht _ _ (by decide) (by decide)
      · exact notToken_none
  | date =>
      cases e <;> cases h
      simp only [leafReason]
      split
      · exact ht _ _ (by decide) (by decide)
      · exact notToken_none
  | enumStr table =>
      cases e <;> cases h
      simp only [leafReason]
      split
      · exact notToken_none
      · exact ht _ _ (by decide) (by decide)

theorem open_notToken {env : Env} {G : Nat → Prop} (hG : CompilesClasses env G) (e : Event) :
    ∀ (t : Ty) (v : Val) (n : Nat), Compiles G t → t.enumNum = false → e.token = t.token →
      NotTokenText (openReason env (openP env t v n).1 e)
  | .prim p, _, _, _, hn, h => leaf_notToken env _ p e h (by rintro t rfl; cases hn)
  | .vec t, _, _, _, _, h => by cases e <;> cases h; exact notToken_none
  | .arr k t, _, _, _, _, h => by cases e <;> cases h; exact notToken_none
  | .set t, _, _, _, _, h => by cases e <;> cases h; exact notToken_none
  | .map o t, _, _, _, _, h => by cases e <;> cases h; exact notToken_none
  | .dict t, _, _, _, _, h => by cases e <;> cases h; exact notToken_none
  | .tuple ts, _, _, _, _, h => by cases e <;> cases h; exact notToken_none
  | .variant ts, _, _, hc, _, _ => by simp [Compiles] at hc
  | .cls c, _, _, hc, _, h => by
      have hg : G c := by simpa [Compiles] using hc
      simp only [openP, (hG c hg).1, if_false]
      cases e <;> cases h; exact notToken_none
  | .uptr t, _, n, hc, hn, h => open_notToken hG e t _ n (by simpa [Compiles] using hc) hn h
  | .sptr t, _, n, hc, hn, h => open_notToken hG e t _ (n + 1) (by simpa [Compiles] using hc) hn h

theorem isToken_of_token {e : Event} {G : Nat → Prop} : ∀ {t : Ty}, Compiles G t → t.numeric = false → e.token = t.token → isToken t e = true
  | .prim p, _, hn, h => by cases p <;> cases e <;> first | cases hn; done | cases h; done | rfl
  | .vec t, _, _, h => by cases e <;> first | rfl | cases h
  | .arr k t, _, _, h => by cases e <;> first | rfl | cases h
  | .set t, _, _, h => by cases e <;> first | rfl | cases h
  | .map o t, _, _, h => by cases e <;> first | rfl | cases h
  | .dict t, _, _, h => by cases e <;> first | rfl | cases h
  | .tuple ts, _, _, h => by cases e <;> first | rfl | cases h
  | .variant ts, hc, _, _ => by simp [Compiles] at hc
  | .cls c, _, _, h => by cases e <;> first | rfl | cases h
  | .uptr t, hc, hn, h => isToken_of_token (t := t) (by simpa [Compiles] using hc) hn h
  | .sptr t, hc, hn, h => isToken_of_token (t := t) (by simpa [Compiles] using hc) hn h

theorem enumNum_numeric : ∀ {t : Ty}, t.numeric = false → t.enumNum = false
  | .prim p, h => by cases p <;> first | rfl | cases h
  | .uptr t, h => enumNum_numeric (t := t) h
  | .sptr t, h => enumNum_numeric (t := t) h
  | .vec _, _ | .arr _ _, _ | .set _, _ | .map _ _, _ | .dict _, _ | .tuple _, _ | .variant _, _ | .cls _, _ => rfl

theorem item_notToken {env : Env} {G : Nat → Prop} (hG : CompilesClasses env G) (t : Ty) (n : Nat) (e : Event) (hc : Compiles G t)
    (he : t.element = true) (h : e.token ∈ [t.token, .endArr]) : NotTokenText (itemReason env t n e) := by
  unfold itemReason
  split
  · exact notToken_none
  · rename_i hne
    have h1 : e.token = t.token := by
      simp only [List.mem_cons, List.not_mem_nil, or_false] at h
      rcases h with h | h
      · exact h
      · cases e <;> first | exact absurd rfl hne | cases h
    split
    · rename_i p hp
      refine leaf_notToken env _ p e (by rw [direct_token hp]; exact h1) ?_
      rintro u rfl
      have := direct_prim hp
      subst this
      cases hp
    · rename_i hd
      have hn : t.numeric = false := by simpa [Ty.element, hd] using he
      rw [if_pos (isToken_of_token hc hn h1)]
      exact open_notToken hG e t _ n hc (enumNum_numeric hn) h1

/-- If a token is among the expected ones, the message is not about the token. -/
theorem step_notToken {env : Env} {host : Host} {G : Nat → Prop} (hG : CompilesClasses env G) (f : Frame) (rest : List Frame)
    (fin : Option Val) (n : Nat) (e : Event) (hc : f.handler.compiles G) (ht : f.handler.consistent = true)
    (h : e.token ∈ f.handler.expected) : NotTokenText (reason env host ⟨f :: rest, fin, n⟩ e) := by
  obtain ⟨c, hd, l, w⟩ := f
  cases hd with
  | leaf p v =>
      refine leaf_notToken env _ p e (by simpa [Handler.expected] using h) ?_
      rintro t rfl
      cases ht
  | vecStart t vs => have h' : e.token = .startArr := by simpa [Handler.expected] using h
                     cases e <;> cases h'; exact notToken_none
  | setStart t vs => have h' : e.token = .startArr := by simpa [Handler.expected] using h
                     cases e <;> cases h'; exact notToken_none
  | fixStart C t vs => have h' : e.token = .startArr := by simpa [Handler.expected] using h
                       cases e <;> cases h'; exact notToken_none
  | mapStart C t vs => have h' : e.token = .startObj := by simpa [Handler.expected] using h
                       cases e <;> cases h'; exact notToken_none
  | objStart C vs => have h' : e.token = .startObj := by simpa [Handler.expected] using h
                     cases e <;> cases h'; exact notToken_none
  | vecItems t vs => exact item_notToken hG t n e hc ht h
  | setItems t st vs => exact item_notToken hG t n e hc ht h
  | fixItems C ts i vs =>
      simp only [Handler.consistent, Handler.expected] at ht h
      simp only [reason]
      cases hi : ts[i]? with
      | none =>
          rw [hi] at h
          have h' : e.token = .endArr := by simpa using h
          cases e <;> cases h'; exact notToken_none
      | some t =>
          rw [hi] at h ht
          have h' : e.token = t.token := by simpa using h
          simp only [startsValue_of_token h', if_true]
          exact open_notToken hG e t _ n (CompilesAll_get hc hi) (by simpa using ht) h'
  | mapItems C t kvs => cases e <;> first | exact notToken_none | (simp [Handler.expected, Event.token] at h)
  | objItems C vs =>
      cases e <;> first | exact notToken_none | (simp [Handler.expected, Event.token] at h; done) | skip
      simp only [reason]
      split
      · exact notToken_of_take (by
          rw [List.take_append_of_le_length (by decide)]
          decide)
      · exact notToken_none
  | unsupported v => exact hc.elim

end Verif.Core
