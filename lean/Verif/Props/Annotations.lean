import Verif.Props.DateTime
import Verif.Props.Base64
import Verif.Schema
import Verif.Typing
import Verif.Demo

/-!
# C90: the annotations of a schema are true

Specification: the texts of RFC 3339 with fractions, offsets and leap seconds, and the moment they denote.
-/

namespace Verif.Rfc3339
open Verif.DateTime

/-- `full-date` -/
def FullDate (s : Str) (y m d : Nat) : Prop := y < 10000 ∧ ValidDate y m d ∧ s = four y ++ [45] ++ two m ++ [45] ++ two d

/-- `time-secfrac`, or nothing -/
inductive Fraction : Str → Prop
  | none : Fraction []
  | some (ds : Str) : ds ≠ [] → (∀ c ∈ ds, 48 ≤ c ∧ c ≤ 57) → Fraction (46 :: ds)

/-- `time-offset` and the seconds by which local time is ahead -/
inductive Offset : Str → Int → Prop
  | utc : Offset [90] 0
  | lower : Offset [122] 0
  | east (h m : Nat) : h < 24 → m < 60 → Offset (43 :: two h ++ [58] ++ two m) (h * 3600 + m * 60)
  | west (h m : Nat) : h < 24 → m < 60 → Offset (45 :: two h ++ [58] ++ two m) (-(h * 3600 + m * 60))

/-- `date-time` in its parts; second 60 is a leap second. -/
structure Parts where
  y : Nat
  m : Nat
  d : Nat
  /-- `T`, which may be a small letter -/
  sep : UInt8
  hour : Nat
  minute : Nat
  second : Nat
  frac : Str
  off : Str
  ahead : Int

/-- What the parts must be. -/
def Parts.Ok (p : Parts) : Prop :=
  p.y < 10000 ∧ ValidDate p.y p.m p.d ∧ (p.sep = 84 ∨ p.sep = 116) ∧ p.hour < 24 ∧ p.minute < 60 ∧ p.second ≤ 60 ∧ Fraction p.frac ∧ Offset p.off p.ahead

/-- The text. -/
def Parts.text (p : Parts) : Str :=
  four p.y ++ [45] ++ two p.m ++ [45] ++ two p.d ++ [p.sep] ++ two p.hour ++ [58] ++ two p.minute ++ [58] ++ two p.second ++ p.frac ++ p.off

/-- Seconds since 1970, without the fraction. -/
def Parts.moment (p : Parts) : Int := dayNumber p.y p.m p.d * 86400 + p.hour * 3600 + p.minute * 60 + p.second - p.ahead

/-- The text is a `date-time` that denotes this second. -/
def DateTime (s : Str) (t : Int) : Prop := ∃ p : Parts, p.Ok ∧ s = p.text ∧ t = p.moment

theorem Offset.pos {o : Str} {a : Int} (h : Offset o a) : 1 ≤ o.length := by cases h <;> simp

theorem Offset.one {o : Str} {a : Int} (h : Offset o a) (hl : o.length = 1) : (o = [90] ∨ o = [122]) ∧ a = 0 := by
  cases h <;> simp [two] at hl ⊢

theorem Parts.length (p : Parts) : p.text.length = 19 + p.frac.length + p.off.length := by
  simp only [Parts.text, four, two, List.length_append, List.length_cons, List.length_nil]

/-- A text of twenty characters has no fraction and no offset. -/
theorem Parts.short {p : Parts} (h : p.Ok) (hl : p.text.length = 20) : p.frac = [] ∧ (p.off = [90] ∨ p.off = [122]) ∧ p.ahead = 0 := by
  obtain ⟨-, -, -, -, -, -, -, ho⟩ := h
  have := p.length
  have := ho.pos
  have h1 : p.frac.length = 0 := by omega
  obtain ⟨h2, h3⟩ := ho.one (by omega)
  exact ⟨List.length_eq_zero_iff.1 h1, h2, h3⟩

theorem digit_inj {a b : Nat} (h : digitChar a = digitChar b) : a % 10 = b % 10 := by
  have h := congrArg UInt8.toNat h
  simp only [digitChar, UInt8.toNat_ofNat'] at h
  omega

theorem two_inj {a b : Nat} (ha : a < 100) (hb : b < 100) (h : two a = two b) : a = b := by
  simp only [two, List.cons.injEq, and_true] at h
  have h1 := digit_inj h.1
  have h2 := digit_inj h.2
  omega

theorem four_inj {a b : Nat} (ha : a < 10000) (hb : b < 10000) (h : four a = four b) : a = b := by
  simp only [four, List.cons.injEq, and_true] at h
  have h1 := digit_inj h.1
  have h2 := digit_inj h.2.1
  have h3 := digit_inj h.2.2.1
  have h4 := digit_inj h.2.2.2
  omega

end Verif.Rfc3339

namespace Verif.Props
open Verif.DateTime Verif.Core

/-- Text equality means that the parts are equal. -/
theorem text_parts {p : Rfc3339.Parts} (hp : p.Ok) {sep : UInt8} {y m d h mi s : Nat} (hy : y < 10000) (hv : ValidTm ⟨(y : Int), m, d, h, mi, s⟩)
    (he : p.text = isoText sep y m d h mi s) :
    p.y = y ∧ p.m = m ∧ p.d = d ∧ p.sep = sep ∧ p.hour = h ∧ p.minute = mi ∧ p.second = s ∧ p.frac = [] ∧ p.off = [90] ∧ p.ahead = 0 := by
  obtain ⟨h1, h2, h3⟩ := Rfc3339.Parts.short hp (by rw [he, length_isoText])
  obtain ⟨g1, g2, -, g4, g5, g6, -, -⟩ := hp
  obtain ⟨f1, f2, f3, f4, f5⟩ := tm_fields _ hv
  simp only at f1 f2 f3 f4 f5
  obtain ⟨e1, e2, -⟩ := tm_fields ⟨(p.y : Int), p.m, p.d, 0, 0, 0⟩ ⟨g2, by simp, by simp, by simp⟩
  simp only at e1 e2
  have key : four p.y = four y ∧ two p.m = two m ∧ two p.d = two d ∧ p.sep = sep ∧ two p.hour = two h ∧ two p.minute = two mi ∧ two p.second = two s ∧
      p.off = [90] := by
    rcases h2 with h2 | h2 <;> rw [Rfc3339.Parts.text, isoText, h1, h2] at he <;>
      simp only [four, two, List.cons_append, List.nil_append, List.append_nil, List.cons.injEq, and_true, true_and] at he ⊢
    · simp only [h2, and_true, and_assoc]
      exact he
    · exact absurd he (by simp)
  obtain ⟨k1, k2, k3, k4, k5, k6, k7, k8⟩ := key
  exact ⟨Rfc3339.four_inj g1 hy k1, Rfc3339.two_inj e1 f1 k2, Rfc3339.two_inj e2 f2 k3, k4, Rfc3339.two_inj (by omega) f3 k5,
    Rfc3339.two_inj (by omega) f4 k6, Rfc3339.two_inj (by omega) f5 k7, h1, k8, h3⟩

/-- The text of a point in time of years 0 to 9999. -/
theorem date_time_written (junk : Nat → Str) (clk : Nat) (ticks : Int) (h : minSecond ≤ toTimeT clk ticks ∧ toTimeT clk ticks < endSecond) :
    Rfc3339.DateTime (toIsoDatetime junk clk ticks) (toTimeT clk ticks) := by
  have hv := gmtime_valid (toTimeT clk ticks)
  have hy := (seconds_year _).1 h
  have hg := timegm_gmtime (toTimeT clk ticks)
  have hf := format_eq junk clk ticks h
  simp only at hf
  generalize gmtime (toTimeT clk ticks) = tm at *
  have hz : ((tm.year.toNat : Nat) : Int) = tm.year := by omega
  refine ⟨⟨tm.year.toNat, tm.month, tm.day, 84, tm.hour, tm.minute, tm.second, [], [90], 0⟩, ?_, ?_, ?_⟩
  · obtain ⟨v1, v2, v3, v4⟩ := hv
    exact ⟨by simp only; omega, by simp only [hz]; exact v1, .inl rfl, v2, v3, by simp only; omega, .none, .utc⟩
  · rw [hf]
    simp [Rfc3339.Parts.text, isoText]
  · rw [Rfc3339.Parts.moment, ← hg, timegm, hz]; simp

/-- **C90 (points in time).** The text written for a point in time is a `date-time` of RFC 3339 that denotes the second of this point
iff the year lies in 0 to 9999, whatever is left by a failed digit conversion. -/
theorem C90_date_time_iff (junk : Nat → Str) (hj : ∀ n, (junk n).length = n) (clk : Nat) (ticks : Int) :
    Rfc3339.DateTime (toIsoDatetime junk clk ticks) (toTimeT clk ticks) ↔ minSecond ≤ toTimeT clk ticks ∧ toTimeT clk ticks < endSecond := by
  constructor
  · rintro ⟨p, hp, he, ht⟩
    have hl4 : ∀ v : Int, (field4 junk v).length = 4 := by
      intro v
      have hc : ∀ room, (toChars junk room v).length = room := by
        intro room
        unfold toChars
        split
        · simp; omega
        · exact hj room
      unfold field4
      split
      · simp [hc]
      · split
        · simp [hc]
        · split <;> simp [hc]
    have hv := gmtime_valid (toTimeT clk ticks)
    obtain ⟨f1, f2, f3, f4, f5⟩ := tm_fields _ hv
    obtain ⟨v1, v2, v3, v4⟩ := hv
    simp only [toIsoDatetime] at he
    rw [field2_eq junk _ f1, field2_eq junk _ f2, field2_eq junk _ f3, field2_eq junk _ f4, field2_eq junk _ f5] at he
    have hl := congrArg List.length he
    simp only [List.length_append, hl4, two, List.length_cons, List.length_nil, Nat.reduceAdd] at hl
    obtain ⟨h1, h2, h3⟩ := Rfc3339.Parts.short hp hl.symm
    obtain ⟨g1, g2, -, g4, g5, g6, -, -⟩ := hp
    have hsec : p.second < 60 := by
      have h4 : two (gmtime (toTimeT clk ticks)).second = two p.second := by
        have := congrArg (List.drop 17) he
        rw [Rfc3339.Parts.text, h1] at this
        simp only [four, two, List.cons_append, List.nil_append, List.append_nil, List.append_assoc, List.drop_succ_cons, List.drop_zero] at this
        rw [List.drop_append, hl4, List.drop_eq_nil_of_le (by rw [hl4]; omega)] at this
        simp only [Nat.reduceSub, List.drop_succ_cons, List.drop_zero, List.nil_append, List.cons.injEq] at this
        simp only [two, this.1, this.2.1]
      rw [← Rfc3339.two_inj f5 (by omega) h4]
      exact v4
    have hvp : ValidTm ⟨(p.y : Int), p.m, p.d, p.hour, p.minute, p.second⟩ := ⟨g2, g4, g5, hsec⟩
    have htm : toTimeT clk ticks = timegm ⟨(p.y : Int), p.m, p.d, p.hour, p.minute, p.second⟩ := by
      rw [ht, Rfc3339.Parts.moment, h3, timegm]; simp
    rw [htm]
    apply (seconds_year _).2
    rw [gmtime_timegm _ hvp]
    simp only
    omega
  · exact date_time_written junk clk ticks

/-- 2024-02-29T23:59:59Z -/
example : Rfc3339.DateTime (toIsoDatetime (List.replicate · 0) 1000000000 (1709251199 * 1000000000 + 5)) 1709251199 := by
  have := (C90_date_time_iff (List.replicate · 0) (by simp) 1000000000 (1709251199 * 1000000000 + 5)).2 (by decide +kernel)
  exact this

/-- Year 10000 -/
example : ¬ Rfc3339.DateTime (toIsoDatetime (List.replicate · 0) 1000000 (endSecond * 1000000)) endSecond := by
  intro h
  exact absurd ((C90_date_time_iff (List.replicate · 0) (by simp) 1000000 (endSecond * 1000000)).1 h) (by decide +kernel)

/-- **C90 (dates).** The text written for a date is the `full-date` of this date iff the year lies in 0 to 9999. -/
theorem C90_date_iff (junk : Nat → Str) (clk : Nat) (hclk : 0 < clk) (y : Int) (m d : Nat) (hv : ValidDate y m d)
    (hr : InRep (dayNumber y m d * 86400 * clk)) :
    (∃ s n : _, formatDate junk clk y m d = some s ∧ (n : Nat) = y ∧ Rfc3339.FullDate s n m d) ↔ 0 ≤ y ∧ y < 10000 := by
  constructor
  · rintro ⟨s, n, -, rfl, hn, -⟩
    omega
  · rintro ⟨h1, h2⟩
    obtain ⟨n, rfl⟩ := Int.eq_ofNat_of_zero_le h1
    refine ⟨isoDateText n m d, n, ?_, rfl, by omega, hv, rfl⟩
    unfold formatDate sysDays
    rw [if_pos hr]
    simp only [Option.map_some, Option.some.injEq]
    unfold toIsoDate
    rw [toTimeT_mul clk hclk]
    have hg := gmtime_timegm ⟨n, m, d, 0, 0, 0⟩ ⟨hv, by simp, by simp, by simp⟩
    have ht : timegm ⟨n, m, d, 0, 0, 0⟩ = dayNumber n m d * 86400 := by simp [timegm]
    rw [ht] at hg
    rw [hg]
    obtain ⟨f1, f2, -⟩ := tm_fields ⟨n, m, d, 0, 0, 0⟩ ⟨hv, by simp, by simp, by simp⟩
    simp only at f1 f2
    simp only
    rw [field4_eq junk n (by omega), field2_eq junk m f1, field2_eq junk d f2]
    rfl

example : ∃ s n : _, formatDate (fun _ => []) 1000000000 2024 2 29 = some s ∧ ((n : Nat) : Int) = 2024 ∧ Rfc3339.FullDate s n 2 29 :=
  (C90_date_iff (fun _ => []) 1000000000 (by decide) 2024 2 29 ⟨by decide, by decide, by decide, by decide⟩ (by decide)).2 (by decide)

/-! ## The annotations -/

/-- A schema document has an annotation about the content of a string. -/
def Annotated (schema : Json) (key value : Str) : Prop :=
  ∃ kw, schema = .obj kw ∧ (key, .str value) ∈ kw ∧ (key = lit "format" ∨ key = lit "contentEncoding")

/-- What the annotations say about a string and the value that it stands for (JSON Schema Validation, 7.3.1 and 8.3); a point in time
counts by whole seconds. -/
inductive Means (clk : Nat) : Str → Str → Str → PVal → Prop
  | dateTime (s : Str) (t : Int) : Rfc3339.DateTime s (t.tdiv clk) → Means clk (lit "format") (lit "date-time") s (.time t)
  | date (s : Str) (y m d : Nat) : Rfc3339.FullDate s y m d → Means clk (lit "format") (lit "date") s (.date y m d)
  | base64 (s bs : Str) : s = Base64.Spec.text bs → Means clk (lit "contentEncoding") (lit "base64") s (.bytes bs)

/-- The year lies in 0 to 9999. -/
def FourDigits (clk : Nat) : PVal → Prop
  | .time t => minSecond ≤ toTimeT clk t ∧ toTimeT clk t < endSecond
  | .date y _ _ => 0 ≤ y ∧ y < 10000
  | _ => True

/-- **C90.** The schema of a type without parts says something about the content of strings just for bytes, points in time and
dates. -/
theorem C90_annotated (k : Prim) : (∃ key value, Annotated (primSchema k).json key value) ↔ k = .bytes ∨ k = .time ∨ k = .date := by
  constructor
  · rintro ⟨key, value, kw, h1, h2, h3⟩
    cases k with
    | bytes => exact .inl rfl
    | time => exact .inr (.inl rfl)
    | date => exact .inr (.inr rfl)
    | int t =>
      exfalso
      simp only [primSchema] at h1
      split at h1 <;> cases h1 <;>
        simp only [Schema.fields, List.mem_cons, Prod.mk.injEq, List.not_mem_nil, or_false] at h2 <;>
        rcases h3 with rfl | rfl <;> revert h2 <;> simp [lit]
    | _ =>
      exfalso
      cases h1
      simp only [primSchema, Schema.fields, optField, Option.map, List.nil_append, List.mem_cons, Prod.mk.injEq, List.not_mem_nil, or_false] at h2
      rcases h3 with rfl | rfl <;> revert h2 <;> simp [lit]
  · rintro (rfl | rfl | rfl)
    · exact ⟨lit "contentEncoding", lit "base64", _, rfl, .tail _ (.head _), .inr rfl⟩
    · exact ⟨lit "format", lit "date-time", _, rfl, .tail _ (.head _), .inl rfl⟩
    · exact ⟨lit "format", lit "date", _, rfl, .tail _ (.head _), .inl rfl⟩

/-- **C90, partial.** What is written for a value without parts has the meaning which the annotations of its schema give it.

Missing: years before 0 and after 9999, see `C90_year_10000`. -/
theorem C90_written_partial (env : Env) (hclk : 0 < env.clk) (k : Prim) (p : PVal) (ht : PrimTy env p k) (hy : FourDigits env.clk p)
    (key value : Str) (h : Annotated (primSchema k).json key value) : ∃ s, serPrim env k p = .ok (.str s) ∧ Means env.clk key value s p := by
  obtain ⟨kw, h1, h2, h3⟩ := id h
  rcases (C90_annotated k).1 ⟨key, value, h⟩ with rfl | rfl | rfl
  · cases p <;> try exact ht.elim
    cases h1
    simp only [primSchema, Schema.fields, optField, Option.map, List.nil_append, List.mem_cons, Prod.mk.injEq, List.not_mem_nil, or_false, Json.str.injEq] at h2
    obtain ⟨rfl, rfl⟩ | ⟨rfl, rfl⟩ := h2
    · exact absurd h3 (by decide)
    · exact ⟨_, rfl, .base64 _ _ (C02_base64_rfc4648 _ _ _)⟩
  · cases p <;> try exact ht.elim
    cases h1
    simp only [primSchema, Schema.fields, optField, Option.map, List.append_nil, List.mem_cons, Prod.mk.injEq, List.not_mem_nil, or_false, Json.str.injEq] at h2
    obtain ⟨rfl, rfl⟩ | ⟨rfl, rfl⟩ := h2
    · exact absurd h3 (by decide)
    · exact ⟨_, rfl, .dateTime _ _ (date_time_written _ _ _ hy)⟩
  · cases p <;> try exact ht.elim
    rename_i y m d
    cases h1
    simp only [primSchema, Schema.fields, optField, Option.map, List.append_nil, List.mem_cons, Prod.mk.injEq, List.not_mem_nil, or_false, Json.str.injEq] at h2
    obtain ⟨rfl, rfl⟩ | ⟨rfl, rfl⟩ := h2
    · exact absurd h3 (by decide)
    · obtain ⟨s, n, h4, rfl, h5⟩ := (C90_date_iff env.junk env.clk hclk y m d ht.1 ht.2).2 hy
      exact ⟨s, by rw [serPrim_date, h4], .date _ _ _ _ h5⟩

example : ∃ s, serPrim Demo.env .bytes (.bytes (lit "light w")) = .ok (.str s) ∧
    Means Demo.env.clk (lit "contentEncoding") (lit "base64") s (.bytes (lit "light w")) :=
  C90_written_partial Demo.env (by decide) .bytes (.bytes (lit "light w")) trivial trivial _ _ ⟨_, rfl, .tail _ (.head _), .inr rfl⟩
example : ∃ s, serPrim Demo.env .date (.date 2024 2 29) = .ok (.str s) ∧ Means Demo.env.clk (lit "format") (lit "date") s (.date 2024 2 29) :=
  C90_written_partial Demo.env (by decide) .date (.date 2024 2 29) ⟨⟨by decide, by decide, by decide, by decide⟩, by decide⟩ ⟨by decide, by decide⟩ _ _
    ⟨_, rfl, .tail _ (.head _), .inl rfl⟩

/-- **C90, full statement refuted.** With a clock of microseconds, year 10000 can be represented and is written, but the text is no
`date-time` that denotes it. -/
theorem C90_year_10000 (env : Env) (hclk : env.clk = 1000000) (hj : ∀ n, (env.junk n).length = n) :
    ∃ s t, PrimTy env (.time t) .time ∧ Annotated (primSchema .time).json (lit "format") (lit "date-time") ∧
      serPrim env .time (.time t) = .ok (.str s) ∧ ¬ Means env.clk (lit "format") (lit "date-time") s (.time t) := by
  refine ⟨_, endSecond * 1000000, (by show InRep _; decide), ⟨_, rfl, .tail _ (.head _), .inl rfl⟩, rfl, ?_⟩
  intro h
  cases h with
  | dateTime _ _ h =>
    have := (C90_date_time_iff env.junk hj env.clk (endSecond * 1000000)).1 h
    rw [hclk] at this
    exact absurd this (by decide +kernel)

example : ∃ env : Env, env.clk = 1000000 ∧ ∀ n, (env.junk n).length = n :=
  ⟨{ Demo.env with clk := 1000000, junk := fun n => List.replicate n 0 }, rfl, by simp⟩

/-! ## Texts of others -/

/-- **C90 (reading).** Of the texts that RFC 3339 allows, the readers take those in capital letters, with `Z`, without a fraction and
outside leap seconds; others are refused. -/
theorem C90_read_iff (clk : Nat) (p : Rfc3339.Parts) (hp : p.Ok) :
    parseDatetime clk p.text ≠ .rejected ↔ p.sep = 84 ∧ p.frac = [] ∧ p.off = [90] ∧ p.second < 60 := by
  rw [(C07_parse_accepts_exactly clk p.text).1]
  constructor
  · rintro ⟨sep, y, m, d, h, mi, s, hs, hy, hv, he⟩
    obtain ⟨-, -, -, e4, -, -, rfl, e8, e9, -⟩ := text_parts hp hy hv he
    refine ⟨?_, e8, e9, hv.2.2.2⟩
    rcases hp.2.2.1 with h1 | h1
    · exact h1
    · rw [h1] at e4
      rcases hs with rfl | rfl <;> exact absurd e4 (by decide)
  · rintro ⟨h1, h2, h3, h4⟩
    refine ⟨84, p.y, p.m, p.d, p.hour, p.minute, p.second, .inl rfl, hp.1, ⟨hp.2.1, hp.2.2.2.1, hp.2.2.2.2.1, h4⟩, ?_⟩
    simp [Rfc3339.Parts.text, isoText, h1, h2, h3]

/-- **C90 (reading).** And what is read is what RFC 3339 says. -/
theorem C90_read_moment (clk : Nat) (p : Rfc3339.Parts) (hp : p.Ok) (t : Int) (h : parseDatetime clk p.text = .ok t) : t = p.moment * clk := by
  obtain ⟨h1, h2, h3, h4⟩ := (C90_read_iff clk p hp).1 (by rw [h]; simp)
  have he : p.text = isoText 84 p.y p.m p.d p.hour p.minute p.second := by simp [Rfc3339.Parts.text, isoText, h1, h2, h3]
  have hv : ValidTm ⟨(p.y : Int), p.m, p.d, p.hour, p.minute, p.second⟩ := ⟨hp.2.1, hp.2.2.2.1, hp.2.2.2.2.1, h4⟩
  have ha : p.ahead = 0 := (text_parts hp hp.1 hv he).2.2.2.2.2.2.2.2.2
  rw [he, parse_isoText clk 84 (.inl rfl) _ _ _ _ _ _ hp.1 hv] at h
  split at h
  · cases h
    rw [Rfc3339.Parts.moment, ha, timegm]; simp
  · cases h

/-- `1985-04-12T23:20:50.52Z` and `1996-12-19T16:39:57-08:00`, from RFC 3339, are refused. -/
example : parseDatetime 1000000000 (lit "1985-04-12T23:20:50.52Z") = .rejected ∧ parseDatetime 1000000000 (lit "1996-12-19T16:39:57-08:00") = .rejected := by
  decide +kernel

/-- `1996-12-20T00:39:57Z` is read. -/
example : parseDatetime 1000000000 (lit "1996-12-20T00:39:57Z") = .ok (851042397 * 1000000000) ∧
    (⟨1996, 12, 20, 84, 0, 39, 57, [], [90], 0⟩ : Rfc3339.Parts).Ok ∧
    (⟨1996, 12, 20, 84, 0, 39, 57, [], [90], 0⟩ : Rfc3339.Parts).text = lit "1996-12-20T00:39:57Z" :=
  ⟨by decide +kernel, ⟨by decide, ⟨by decide, by decide, by decide, by decide⟩, .inl rfl, by decide, by decide, by decide, .none, .utc⟩, by decide +kernel⟩

/-- **C90 (reading).** Every `full-date` is read, and read as this date, if the clock has it. -/
theorem C90_date_read (clk : Nat) (hclk : 0 < clk) (s : Str) (y m d : Nat) (h : Rfc3339.FullDate s y m d) (hr : InRep (dayNumber y m d * 86400 * clk)) :
    readDate clk s = .ok y m d := by
  obtain ⟨h1, h2, rfl⟩ := h
  have := (C11_date_accepts_exactly clk hclk []).2 y m d h1 h2
  rw [if_pos hr] at this
  exact this

example : readDate 1000000000 (lit "2000-02-29") = .ok 2000 2 29 :=
  C90_date_read 1000000000 (by decide) _ 2000 2 29 ⟨by decide, ⟨by decide, by decide, by decide, by decide⟩, by decide +kernel⟩ (by decide)

end Verif.Props
