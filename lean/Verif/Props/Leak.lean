import Verif.WriteTotal
import Verif.Demo
import Verif.Props.Base64
import Verif.Props.DateTime

/-!
# C100: what is written depends on the value only

The Base64 encoder reads past its buffer (C03), and `std::to_chars` leaves unspecified characters behind when a
year does not fit (C12). Two programs `env` and `env'` with the same classes on the same clock, one value: what
is around them in memory does not show in the output.
-/

namespace Verif.Props
open Verif.Core Verif.DateTime Verif.Demo

/-- The same program text on the same clock with the same hash function. Memory behind buffers, byte order,
characters left behind by `std::to_chars`, contents of new variables, comparison of set elements are arbitrary. -/
structure SameProgram (env env' : Env) : Prop where
  classes : env'.classes = env.classes
  clk : env'.clk = env.clk
  order : env'.order = env.order

/-- The scalar occurs in the value. -/
inductive Has : Val → PVal → Prop
  | prim (p : PVal) : Has (.prim p) p
  | seq (vs : List Val) (v : Val) (p : PVal) : v ∈ vs → Has v p → Has (.seq vs) p
  | tup (vs : List Val) (v : Val) (p : PVal) : v ∈ vs → Has v p → Has (.tup vs) p
  | set (vs : List Val) (v : Val) (p : PVal) : v ∈ vs → Has v p → Has (.set vs) p
  | map (kvs : List (Str × Val)) (kv : Str × Val) (p : PVal) : kv ∈ kvs → Has kv.2 p → Has (.map kvs) p
  | dict (kvs : List (Str × Val)) (kv : Str × Val) (p : PVal) : kv ∈ kvs → Has kv.2 p → Has (.dict kvs) p
  | obj (vs : List Val) (v : Val) (p : PVal) : v ∈ vs → Has v p → Has (.obj vs) p
  | alt (i : Nat) (v : Val) (p : PVal) : Has v p → Has (.alt i v) p
  | present (v : Val) (p : PVal) : Has v p → Has (.present v) p
  | uptr (v : Val) (p : PVal) : Has v p → Has (.uptr v) p
  | sptr (a : Nat) (v : Val) (p : PVal) : Has v p → Has (.sptr a v) p

/-- Time stamps and dates are in the years 0 to 9999. -/
def YearFits (clk : Nat) : PVal → Prop
  | .time t => minSecond ≤ toTimeT clk t ∧ toTimeT clk t < endSecond
  | .date y m d => ValidDate y m d ∧ 0 ≤ y ∧ y < 10000
  | _ => True

/-- Every year in the value has at most four digits. -/
def YearsFit (clk : Nat) (v : Val) : Prop := ∀ p, Has v p → YearFits clk p

/-! ## Leaves -/

theorem field4_same (junk junk' : Nat → Str) (y : Int) (h0 : 0 ≤ y) (h1 : y < 10000) : field4 junk y = field4 junk' y := by
  obtain ⟨n, rfl⟩ := Int.eq_ofNat_of_zero_le h0
  rw [field4_eq junk n (by omega), field4_eq junk' n (by omega)]

theorem isoDate_same (junk junk' : Nat → Str) (clk : Nat) (ticks : Int) (h : minSecond ≤ toTimeT clk ticks ∧ toTimeT clk ticks < endSecond) :
    toIsoDate junk clk ticks = toIsoDate junk' clk ticks := by
  have hy := (seconds_year _).1 h
  have hv := gmtime_valid (toTimeT clk ticks)
  simp only [toIsoDate]
  generalize gmtime (toTimeT clk ticks) = tm at *
  obtain ⟨f1, f2, -⟩ := tm_fields tm hv
  rw [field2_eq junk _ f1, field2_eq junk _ f2, field2_eq junk' _ f1, field2_eq junk' _ f2, field4_same junk junk' _ hy.1 hy.2]

theorem serPrim_same {env env' : Env} (h : SameProgram env env') (hclk : 0 < env.clk) (k : Prim) (p : PVal) (hp : YearFits env.clk p) :
    serPrim env' k p = serPrim env k p := by
  have plain : ∀ k, k ≠ .bytes → k ≠ .time → k ≠ .date → serPrim env' k p = serPrim env k p := by
    intro k h1 h2 h3
    cases k <;> first | exact absurd rfl h1 | exact absurd rfl h2 | exact absurd rfl h3 | (cases p <;> rfl)
  cases k with
  | bytes =>
    cases p with
    | bytes s => rw [serPrim_bytes, serPrim_bytes, C02_base64_endian env'.endian env.endian env'.foreign env.foreign s]
    | _ => rfl
  | time =>
    cases p with
    | time t =>
      have h1 := format_eq env.junk env.clk t hp
      have h2 := format_eq env'.junk env.clk t hp
      rw [serPrim_time, serPrim_time, h.clk, h2, ← h1]
    | _ => rfl
  | date =>
    cases p with
    | date y m d =>
      obtain ⟨hv, h0, h1⟩ := hp
      have e : formatDate env'.junk env'.clk y m d = formatDate env.junk env.clk y m d := by
        rw [h.clk]
        unfold formatDate sysDays
        split
        · simp only [Option.map_some, Option.some.injEq]
          refine isoDate_same _ _ _ _ ((seconds_year _).2 ?_)
          rw [toTimeT_mul env.clk hclk]
          have hg := gmtime_timegm ⟨y, m, d, 0, 0, 0⟩ ⟨hv, by simp, by simp, by simp⟩
          have ht : timegm ⟨y, m, d, 0, 0, 0⟩ = dayNumber y m d * 86400 := by simp [timegm]
          rw [ht] at hg
          rw [hg]
          exact ⟨h0, h1⟩
        · rfl
      rw [serPrim_date, serPrim_date, e]
    | _ => rfl
  | _ => exact plain _ (by simp) (by simp) (by simp)

/-! ## Serialization -/

theorem ser_same {env env' : Env} (h : SameProgram env env') (hclk : 0 < env.clk) : ∀ v, YearsFit env.clk v → ∀ t segs σ, ser env' v t segs σ = ser env v t segs σ := by
  apply Val.strong
  intro v ih hv t segs σ
  have items : ∀ vs : List Val, (∀ w ∈ vs, sizeOf w < sizeOf v ∧ YearsFit env.clk w) → ∀ ts k segs σ, serItems env' vs ts k segs σ = serItems env vs ts k segs σ := by
    intro vs
    induction vs with
    | nil => intro _ ts k segs σ; cases ts <;> simp only [serItems]
    | cons w vs ihl =>
      intro hs ts k segs σ
      cases ts with
      | nil => simp only [serItems]
      | cons t ts =>
        obtain ⟨h1, h2⟩ := hs w (by simp)
        simp only [serItems, ih w h1 h2]
        simp only [ihl fun x hx => hs x (by simp [hx])]
  have sets : ∀ vs : List Val, (∀ w ∈ vs, sizeOf w < sizeOf v ∧ YearsFit env.clk w) → ∀ t segs σ, serSet env' vs t segs σ = serSet env vs t segs σ := by
    intro vs
    induction vs with
    | nil => intro _ t segs σ; simp only [serSet]
    | cons w vs ihl =>
      intro hs t segs σ
      obtain ⟨h1, h2⟩ := hs w (by simp)
      simp only [serSet, ih w h1 h2]
      simp only [ihl fun x hx => hs x (by simp [hx])]
  have vals : ∀ kvs : List (Str × Val), (∀ p ∈ kvs, sizeOf p.2 < sizeOf v ∧ YearsFit env.clk p.2) → ∀ t, serVals env' kvs t = serVals env kvs t := by
    intro kvs
    induction kvs with
    | nil => intro _ t; simp only [serVals]
    | cons p kvs ihl =>
      intro hs t
      obtain ⟨k, w⟩ := p
      obtain ⟨h1, h2⟩ := hs (k, w) (by simp)
      have e : ser env' w t = ser env w t := by funext segs σ; exact ih w h1 h2 t segs σ
      simp only [serVals, e, ihl fun x hx => hs x (by simp [hx])]
  have members : ∀ vs : List Val, (∀ w ∈ vs, sizeOf w < sizeOf v ∧ YearsFit env.clk w) → ∀ ms segs σ, serMembers env' vs ms segs σ = serMembers env vs ms segs σ := by
    intro vs
    induction vs with
    | nil => intro _ ms segs σ; cases ms <;> simp only [serMembers]
    | cons w vs ihl =>
      intro hs ms segs σ
      cases ms with
      | nil => simp only [serMembers]
      | cons m ms =>
        obtain ⟨h1, h2⟩ := hs w (by simp)
        have ihl' := ihl fun x hx => hs x (by simp [hx])
        have hp : ∀ u, w = .present u → ∀ t segs σ, ser env' u t segs σ = ser env u t segs σ := by
          rintro u rfl t segs σ
          exact ih u (by simp +arith at h1 ⊢; omega) (fun p hp => h2 p (.present _ _ hp)) t segs σ
        obtain ⟨name, kind, ty⟩ := m
        cases kind with
        | optional =>
          cases w with
          | present u => simp only [serMembers, hp u rfl, ihl']
          | _ => simp only [serMembers, ihl']
        | required => simp only [serMembers, ih w h1 h2, ihl']
        | default => simp only [serMembers, ih w h1 h2, ihl']
  have hiter : ∀ {α : Type} (o : Bool) (segs : List Seg) (kvs : List (Str × α)), iterate env' o segs kvs = iterate env o segs kvs := by
    intro α o segs kvs
    simp only [iterate, h.order]
  have hmem : ∀ c, env'.members c = env.members c := fun c => by simp only [Env.members, h.classes]
  cases v with
  | prim p =>
    cases t with
    | prim k => simp only [ser, serPrim_same h hclk k p (hv p (.prim p))]
    | _ => simp only [ser]
  | seq vs =>
    cases t with
    | vec t => simp only [ser, items vs fun w hw => ⟨by have := mem_size hw; simp +arith; omega, fun p hp => hv p (.seq vs w p hw hp)⟩]
    | _ => simp only [ser]
  | tup vs =>
    have := items vs fun w hw => ⟨by have := mem_size hw; simp +arith; omega, fun p hp => hv p (.tup vs w p hw hp)⟩
    cases t with
    | arr n t => simp only [ser, this]
    | tuple ts => simp only [ser, this]
    | _ => simp only [ser]
  | set vs =>
    cases t with
    | set t => simp only [ser, sets vs fun w hw => ⟨by have := mem_size hw; simp +arith; omega, fun p hp => hv p (.set vs w p hw hp)⟩]
    | _ => simp only [ser]
  | map kvs =>
    cases t with
    | map o t => simp only [ser, hiter, vals kvs fun w hw => ⟨by have := mem_size_kv hw; simp +arith; omega, fun p hp => hv p (.map kvs w p hw hp)⟩]
    | _ => simp only [ser]
  | dict kvs =>
    cases t with
    | dict t => simp only [ser, vals kvs fun w hw => ⟨by have := mem_size_kv hw; simp +arith; omega, fun p hp => hv p (.dict kvs w p hw hp)⟩]
    | _ => simp only [ser]
  | alt i w =>
    have := ih w (by simp +arith) fun p hp => hv p (.alt i w p hp)
    cases t with
    | variant ts => simp only [ser, this]
    | _ => simp only [ser]
  | obj vs =>
    cases t with
    | cls c => simp only [ser, hmem, members vs fun w hw => ⟨by have := mem_size hw; simp +arith; omega, fun p hp => hv p (.obj vs w p hw hp)⟩]
    | _ => simp only [ser]
  | uptr w =>
    have := ih w (by simp +arith) fun p hp => hv p (.uptr w p hp)
    cases t with
    | uptr t => simp only [ser, this]
    | _ => simp only [ser]
  | sptr a w =>
    have := ih w (by simp +arith) fun p hp => hv p (.sptr a w p hp)
    cases t with
    | sptr t => simp only [ser, this]
    | _ => simp only [ser]
  | _ => cases t <;> simp only [ser]

theorem wr_same {env env' : Env} (h : SameProgram env env') (hclk : 0 < env.clk) : ∀ v, YearsFit env.clk v → ∀ t segs σ, wr env' v t segs σ = wr env v t segs σ := by
  apply Val.strong
  intro v ih hv t segs σ
  have items : ∀ vs : List Val, (∀ w ∈ vs, sizeOf w < sizeOf v ∧ YearsFit env.clk w) → ∀ ts k segs σ, wrItems env' vs ts k segs σ = wrItems env vs ts k segs σ := by
    intro vs
    induction vs with
    | nil => intro _ ts k segs σ; cases ts <;> simp only [wrItems]
    | cons w vs ihl =>
      intro hs ts k segs σ
      cases ts with
      | nil => simp only [wrItems]
      | cons t ts =>
        obtain ⟨h1, h2⟩ := hs w (by simp)
        simp only [wrItems, ih w h1 h2]
        simp only [ihl fun x hx => hs x (by simp [hx])]
  have sets : ∀ vs : List Val, (∀ w ∈ vs, sizeOf w < sizeOf v ∧ YearsFit env.clk w) → ∀ t segs σ, wrSet env' vs t segs σ = wrSet env vs t segs σ := by
    intro vs
    induction vs with
    | nil => intro _ t segs σ; simp only [wrSet]
    | cons w vs ihl =>
      intro hs t segs σ
      obtain ⟨h1, h2⟩ := hs w (by simp)
      simp only [wrSet, ih w h1 h2]
      simp only [ihl fun x hx => hs x (by simp [hx])]
  have vals : ∀ kvs : List (Str × Val), (∀ p ∈ kvs, sizeOf p.2 < sizeOf v ∧ YearsFit env.clk p.2) → ∀ t, wrVals env' kvs t = wrVals env kvs t := by
    intro kvs
    induction kvs with
    | nil => intro _ t; simp only [wrVals]
    | cons p kvs ihl =>
      intro hs t
      obtain ⟨k, w⟩ := p
      obtain ⟨h1, h2⟩ := hs (k, w) (by simp)
      have e : wr env' w t = wr env w t := by funext segs σ; exact ih w h1 h2 t segs σ
      simp only [wrVals, e, ihl fun x hx => hs x (by simp [hx])]
  have members : ∀ vs : List Val, (∀ w ∈ vs, sizeOf w < sizeOf v ∧ YearsFit env.clk w) → ∀ ms segs σ, wrMembers env' vs ms segs σ = wrMembers env vs ms segs σ := by
    intro vs
    induction vs with
    | nil => intro _ ms segs σ; cases ms <;> simp only [wrMembers]
    | cons w vs ihl =>
      intro hs ms segs σ
      cases ms with
      | nil => simp only [wrMembers]
      | cons m ms =>
        obtain ⟨h1, h2⟩ := hs w (by simp)
        have ihl' := ihl fun x hx => hs x (by simp [hx])
        have hp : ∀ u, w = .present u → ∀ t segs σ, wr env' u t segs σ = wr env u t segs σ := by
          rintro u rfl t segs σ
          exact ih u (by simp +arith at h1 ⊢; omega) (fun p hp => h2 p (.present _ _ hp)) t segs σ
        obtain ⟨name, kind, ty⟩ := m
        cases kind with
        | optional =>
          cases w with
          | present u => simp only [wrMembers, hp u rfl, ihl']
          | _ => simp only [wrMembers, ihl']
        | required => simp only [wrMembers, ih w h1 h2, ihl']
        | default => simp only [wrMembers, ih w h1 h2, ihl']
  have hiter : ∀ {α : Type} (o : Bool) (segs : List Seg) (kvs : List (Str × α)), iterate env' o segs kvs = iterate env o segs kvs := by
    intro α o segs kvs
    simp only [iterate, h.order]
  have hmem : ∀ c, env'.members c = env.members c := fun c => by simp only [Env.members, h.classes]
  cases v with
  | prim p =>
    cases t with
    | prim k => simp only [wr, serPrim_same h hclk k p (hv p (.prim p))]
    | _ => simp only [wr]
  | seq vs =>
    cases t with
    | vec t => simp only [wr, items vs fun w hw => ⟨by have := mem_size hw; simp +arith; omega, fun p hp => hv p (.seq vs w p hw hp)⟩]
    | _ => simp only [wr]
  | tup vs =>
    have := items vs fun w hw => ⟨by have := mem_size hw; simp +arith; omega, fun p hp => hv p (.tup vs w p hw hp)⟩
    cases t with
    | arr n t => simp only [wr, this]
    | tuple ts => simp only [wr, this]
    | _ => simp only [wr]
  | set vs =>
    cases t with
    | set t => simp only [wr, sets vs fun w hw => ⟨by have := mem_size hw; simp +arith; omega, fun p hp => hv p (.set vs w p hw hp)⟩]
    | _ => simp only [wr]
  | map kvs =>
    cases t with
    | map o t => simp only [wr, hiter, vals kvs fun w hw => ⟨by have := mem_size_kv hw; simp +arith; omega, fun p hp => hv p (.map kvs w p hw hp)⟩]
    | _ => simp only [wr]
  | dict kvs =>
    cases t with
    | dict t => simp only [wr, vals kvs fun w hw => ⟨by have := mem_size_kv hw; simp +arith; omega, fun p hp => hv p (.dict kvs w p hw hp)⟩]
    | _ => simp only [wr]
  | alt i w =>
    have := ih w (by simp +arith) fun p hp => hv p (.alt i w p hp)
    cases t with
    | variant ts => simp only [wr, this]
    | _ => simp only [wr]
  | obj vs =>
    cases t with
    | cls c => simp only [wr, hmem, members vs fun w hw => ⟨by have := mem_size hw; simp +arith; omega, fun p hp => hv p (.obj vs w p hw hp)⟩]
    | _ => simp only [wr]
  | uptr w =>
    have := ih w (by simp +arith) fun p hp => hv p (.uptr w p hp)
    cases t with
    | uptr t => simp only [wr, this]
    | _ => simp only [wr]
  | sptr a w =>
    have := ih w (by simp +arith) fun p hp => hv p (.sptr a w p hp)
    cases t with
    | sptr t => simp only [wr, this]
    | _ => simp only [wr]
  | _ => cases t <;> simp only [wr]

/-! ## C100 -/

/-- **C100, documents.** The document that is made of a value, or the failure, is the same in two programs that differ in what surrounds
the value in memory.

Missing: years outside of 0 to 9999 (see `C100_time_iff`). -/
theorem C100_document_partial (env env' : Env) (h : SameProgram env env') (hclk : 0 < env.clk) (t : Ty) (v : Val) (hv : YearsFit env.clk v) :
    serializeToDocument env' t v = serializeToDocument env t v := by
  unfold serializeToDocument
  rw [ser_same h hclk v hv]

/-- **C100, texts.** The same for the text that is written.

Missing: years outside of 0 to 9999 (see `C100_time_iff`). -/
theorem C100_text_partial (env env' : Env) (h : SameProgram env env') (hclk : 0 < env.clk) (t : Ty) (v : Val) (hv : YearsFit env.clk v)
    (before : List Event) : writeToString env' t v before = writeToString env t v before := by
  unfold writeToString
  rw [wr_same h hclk v hv]

/-- The field of the year holds unspecified characters unless the year has at most four digits. -/
theorem field4_leaks (y : Int) (h : ¬ (0 ≤ y ∧ y < 10000)) : (field4 (List.replicate · 65) y).getLast? = some 65 ∧ (field4 (List.replicate · 66) y).getLast? = some 66 := by
  by_cases h0 : y < 0
  · have hl : ¬ (decimalInt y).length ≤ 1 := by
      have := List.length_pos_iff.2 (decimal_ne_nil y.natAbs)
      simp only [decimalInt, if_pos h0, List.length_cons]
      omega
    simp only [field4, if_pos (show y < 10 by omega), toChars, if_neg hl]
    exact ⟨rfl, rfl⟩
  · have hl : ¬ (decimalInt y).length ≤ 4 := by
      have := decimal_length_five y.natAbs (by omega)
      simp only [decimalInt, if_neg h0]
      omega
    simp only [field4, if_neg (show ¬ y < 10 by omega), if_neg (show ¬ y < 100 by omega), if_neg (show ¬ y < 1000 by omega), toChars, if_neg hl]
    exact ⟨rfl, rfl⟩

theorem field4_length (junk : Nat → Str) (hj : ∀ n, (junk n).length = n) (v : Int) : (field4 junk v).length = 4 := by
  have hc : ∀ room, (toChars junk room v).length = room := by
    intro room
    unfold toChars
    split
    · simp; omega
    · exact hj room
  unfold field4
  split
  · simp [hc]
  · split
    · simp [hc]
    · split <;> simp [hc]

/-- **C100, negation.** The text of a time stamp is free of characters that happen to be in memory exactly if its year is in 0 to 9999. -/
theorem C100_time_iff (clk : Nat) (ticks : Int) :
    (∀ junk junk' : Nat → Str, (∀ n, (junk n).length = n) → (∀ n, (junk' n).length = n) → toIsoDatetime junk clk ticks = toIsoDatetime junk' clk ticks) ↔
    minSecond ≤ toTimeT clk ticks ∧ toTimeT clk ticks < endSecond := by
  constructor
  · intro h
    rw [seconds_year]
    refine Classical.byContradiction fun hn => ?_
    obtain ⟨h1, h2⟩ := field4_leaks _ hn
    have he := congrArg (List.take 4) (h (List.replicate · 65) (List.replicate · 66) (by simp) (by simp))
    simp only [toIsoDatetime, List.append_assoc] at he
    have l1 := field4_length (List.replicate · 65) (by simp) (gmtime (toTimeT clk ticks)).year
    have l2 := field4_length (List.replicate · 66) (by simp) (gmtime (toTimeT clk ticks)).year
    rw [List.take_append_of_le_length (Nat.le_of_eq l1.symm), List.take_append_of_le_length (Nat.le_of_eq l2.symm),
      List.take_of_length_le (Nat.le_of_eq l1), List.take_of_length_le (Nat.le_of_eq l2)] at he
    rw [he, h2] at h1
    cases h1
  · intro h junk junk' _ _
    have h1 := format_eq junk clk ticks h
    have h2 := format_eq junk' clk ticks h
    rw [h1, h2]

example : ∀ junk : Nat → Str, (∀ n, (junk n).length = n) → toIsoDatetime junk 1 0 = toIsoDatetime (List.replicate · 0) 1 0 := fun junk hj =>
  (C100_time_iff 1 0).2 (by decide +kernel) _ _ hj (by simp)

example : ¬ (minSecond ≤ toTimeT 1 253402300800 ∧ toTimeT 1 253402300800 < endSecond) := by decide +kernel

/-! ## Examples -/

/-- A program somewhere else in memory. -/
def elsewhere : Env := { Demo.env with
  endian := .big, foreign := fun k => UInt8.ofNat (13 * k + 1), junk := (List.replicate · 63), fresh := fun _ => .nullptr }

theorem demo_elsewhere : SameProgram Demo.env elsewhere := ⟨rfl, rfl, rfl⟩

/-- Bytes, a date and a time stamp, in a vector, behind a pointer, in an optional member. -/
example (t : Ty) (bs : Str) : serializeToDocument elsewhere t (.tup [.seq [.prim (.bytes bs)], .uptr (.prim (.date 2024 2 29)), .sptr 7 (.prim (.time 5))]) =
    serializeToDocument Demo.env t (.tup [.seq [.prim (.bytes bs)], .uptr (.prim (.date 2024 2 29)), .sptr 7 (.prim (.time 5))]) := by
  refine C100_document_partial Demo.env elsewhere demo_elsewhere (by decide) t _ fun p hp => ?_
  cases hp with
  | tup _ w _ hw hp =>
    simp only [List.mem_cons, List.not_mem_nil, or_false] at hw
    rcases hw with rfl | rfl | rfl
    · cases hp with
      | seq _ w _ hw hp =>
        simp only [List.mem_cons, List.not_mem_nil, or_false] at hw
        subst hw
        cases hp
        trivial
    · cases hp with
      | uptr _ _ hp => cases hp; exact ⟨by unfold ValidDate; decide, by decide, by decide⟩
    · cases hp with
      | sptr _ _ _ hp => cases hp; exact (by decide +kernel : minSecond ≤ toTimeT 1000000000 5 ∧ toTimeT 1000000000 5 < endSecond)

/-- A clock with microseconds; the memory behind a number that does not fit is filled with one character. -/
def micro (c : UInt8) : Env := { Demo.env with clk := 1000000, junk := (List.replicate · c) }

/-- **C100, negation.** The first second of year 10000: the document shows what is in memory. -/
theorem C100_leak : SameProgram (micro 65) (micro 66) ∧ HasTy (micro 65) heap (.prim (.time 253402300800000000)) (.prim .time) ∧
    serializeToDocument (micro 65) (.prim .time) (.prim (.time 253402300800000000)) ≠
      serializeToDocument (micro 66) (.prim .time) (.prim (.time 253402300800000000)) := by
  refine ⟨⟨rfl, rfl, rfl⟩, ?_, ?_⟩
  · simp only [HasTy, PrimTy]
    decide
  · have e : ∀ c, serializeToDocument (micro c) (.prim .time) (.prim (.time 253402300800000000)) =
        some (some (.str (toIsoDatetime (List.replicate · c) 1000000 253402300800000000))) := by
      intro c
      simp only [serializeToDocument, ser, serPrim_time, micro]
    have n : toIsoDatetime (List.replicate · 65) 1000000 253402300800000000 ≠ toIsoDatetime (List.replicate · 66) 1000000 253402300800000000 := by
      decide +kernel
    rw [e, e]
    intro h
    injection h with h
    injection h with h
    injection h with h
    exact n h

example (before : List Event) : writeToString elsewhere (.vec (.prim .bytes)) (.seq [.prim (.bytes (lit "light w"))]) before =
    writeToString Demo.env (.vec (.prim .bytes)) (.seq [.prim (.bytes (lit "light w"))]) before := by
  refine C100_text_partial Demo.env elsewhere demo_elsewhere (by decide) _ _ (fun p hp => ?_) before
  cases hp with
  | seq _ w _ hw hp =>
    simp only [List.mem_cons, List.not_mem_nil, or_false] at hw
    subst hw
    cases hp
    trivial

end Verif.Props
