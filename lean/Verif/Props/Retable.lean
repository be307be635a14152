import Verif.RetableParse
import Verif.Props.Parse

/-!
# C124, C125: the order of the enumerators in the table of an enumeration, and the names of classes

The specification is `Reordering`: tables in which no name and no enumerator occurs twice are put in another order, other tables stay. `re` (`Verif.Retable`)
puts the new tables into a type. For C125, `re` puts another class in place of each class, and `Retabled` says that it has the same members.
-/

namespace Verif.Props
open Verif.Core Verif.Numeric Verif.Demo Verif.EnumConv Verif.Retable

/-- No name and no enumerator occurs twice. -/
def Distinct (table : Table) : Prop := (table.map (·.1)).Nodup ∧ (table.map (·.2)).Nodup

instance (table : Table) : Decidable (Distinct table) := inferInstanceAs (Decidable (_ ∧ _))

/-- The tables without repetitions are put in another order; different tables stay different. -/
structure Reordering (f : Table → Table) : Prop where
  perm : ∀ table, (f table).Perm table
  keep : ∀ table, ¬ Distinct table → f table = table
  inj : ∀ a b, f a = f b → a = b

/-- Other tables, the same classes. -/
abbrev tables (f : Table → Table) : Sub := ⟨f, id⟩

/-- Other classes, the same tables. -/
abbrev named (g : Nat → Nat) : Sub := ⟨id, g⟩

/-! ## C124 -/

/-- **C124, the table.** The conversions between enumerators and names find the same in a table in another order. -/
theorem C124_search (table table' : Table) (h : table.Perm table') (hd : Distinct table) :
    (∀ v, enumName table v = enumName table' v) ∧ ∀ s, enumValue table s = enumValue table' s :=
  ⟨enumName_perm h hd.1, enumValue_perm h hd.2⟩

theorem reordering_search {f : Table → Table} (h : Reordering f) (table : Table) :
    (∀ v, enumName (f table) v = enumName table v) ∧ ∀ s, enumValue (f table) s = enumValue table s := by
  by_cases hd : Distinct table
  · have := C124_search table (f table) (h.perm table).symm hd
    exact ⟨fun v => (this.1 v).symm, fun s => (this.2 s).symm⟩
  · rw [h.keep table hd]
    exact ⟨fun _ => rfl, fun _ => rfl⟩

/-- **C124, writing.** Both writers produce the same for programs that differ in the order of their tables, or fail for both. -/
theorem C124_write (f : Table → Table) (h : Reordering f) (env env' : Env) (hr : Retabled (tables f) env env') (t : Ty) (v : Val) (before : List Event) :
    serializeToDocument env' (re (tables f) t) v = serializeToDocument env t v ∧ writeToString env' (re (tables f) t) v before = writeToString env t v before := by
  have hn := fun table => (reordering_search h table).1
  exact ⟨by simp only [serializeToDocument, ser_re hr hn], by simp only [writeToString, wr_re hr hn]⟩

/-- **C124, reading.** Both readers of the DOM do the same for programs that differ in the order of their tables: same values, same errors at the same places,
same previous contents left, also for shared objects and references. -/
theorem C124_read (f : Table → Table) (h : Reordering f) (env env' : Env) (hr : Retabled (tables f) env env') (t : Ty) (root : Json) (target : Val) (next : Nat) :
    deserializeBool env' (re (tables f) t) root target next = deserializeBool env t root target next ∧
    deserializeThrow env' (re (tables f) t) root next = deserializeThrow env t root next := by
  have key := fun exc target => deser_re hr (fun table => (reordering_search h table).2) ⟨h.inj, fun _ _ h => h⟩ root root exc t target [] [] ⟨[], next⟩
  have hs : reState (tables f) ⟨[], next⟩ = ⟨[], next⟩ := rfl
  simp only [hs] at key
  constructor
  · simp only [deserializeBool, key]
    cases deser env root root false t target [] [] ⟨[], next⟩ <;> rfl
  · simp only [deserializeThrow, key, hr.fresh]
    cases deser env root root true t (env.fresh t) [] [] ⟨[], next⟩ <;> rfl

/-- **C124, parsing.** Both forms of the parser do the same for programs that differ in the order of their tables, on documents and on broken texts: same verdict,
same value, same exception when the stack of handlers is full. -/
theorem C124_parse (f : Table → Table) (h : Reordering f) (env env' : Env) (hr : Retabled (tables f) env env') (host host' : Host) (hh : SameHost (tables f) host host') (t : Ty)
    (feed : Feed) (target : Val) (next : Nat) :
    parseBool env' host' (re (tables f) t) feed target next = parseBool env host t feed target next ∧
    parseThrow env' host' (re (tables f) t) feed next = parseThrow env host t feed next := by
  have hv := fun table => (reordering_search h table).2
  exact ⟨parseBool_re hr hv hh t feed target next, by simp only [parseThrow, hr.fresh, parseBool_re hr hv hh]⟩

/-- The tables without repetitions are turned around. -/
def turnTable (table : Table) : Table := if Distinct table then table.reverse else table

theorem distinct_reverse (table : Table) : Distinct table.reverse ↔ Distinct table := by
  simp [Distinct, List.map_reverse, List.nodup_reverse]

theorem turnTable_reordering : Reordering turnTable where
  perm table := by
    unfold turnTable
    split
    · exact List.reverse_perm table
    · exact .refl table
  keep table h := if_neg h
  inj a b h := by
    have inv : ∀ table, turnTable (turnTable table) = table := fun table => by
      by_cases hd : Distinct table
      · simp [turnTable, hd, distinct_reverse]
      · simp [turnTable, hd]
    rw [← inv a, h, inv b]

/-- The demo program with all tables turned around. -/
def tableEnv : Env := { env with classes := fun c => { env.classes c with members := (env.classes c).members.map (reMember (tables turnTable)) } }

theorem tableEnv_retabled : Retabled (tables turnTable) env tableEnv where
  members _ := rfl
  endian := rfl
  foreign := rfl
  junk := rfl
  clk := rfl
  order := rfl
  less := rfl
  fragment := rfl
  fresh _ := rfl
  ctor _ := rfl

/-- A type with tables inside: a vector of pairs of a shared enumerator and a variant. -/
abbrev tColors : Ty := .vec (.tuple [.sptr tColor, .variant [tInt, tColor]])

example : re (tables turnTable) tColors =
    .vec (.tuple [.sptr (.prim (.enumStr [(2, lit "blue"), (1, lit "green"), (0, lit "red")])), .variant [tInt, .prim (.enumStr [(2, lit "blue"), (1, lit "green"), (0, lit "red")])]]) := by
  with_unfolding_all rfl

example : serializeToDocument env tColors (.seq [.tup [.sptr 100 (.prim (.int 1)), .alt 1 (.prim (.int 2))]]) =
    some (some (.arr [.arr [.str (lit "green"), .str (lit "blue")]])) := by with_unfolding_all rfl

example : serializeToDocument tableEnv (re (tables turnTable) tColors) (.seq [.tup [.sptr 100 (.prim (.int 1)), .alt 1 (.prim (.int 2))]]) =
    some (some (.arr [.arr [.str (lit "green"), .str (lit "blue")]])) :=
  ((C124_write turnTable turnTable_reordering env tableEnv tableEnv_retabled tColors _ []).1).trans (by with_unfolding_all rfl)

/-- The name at `/1/0` is unknown to both programs. -/
example : deserializeThrow tableEnv (re (tables turnTable) tColors) (.arr [.arr [.str (lit "green"), .str (lit "blue")], .arr [.str (lit "pink"), .num (.int 1)]]) 500 =
    .threw (lit "/1/0") (.unknownEnumerator (lit "pink")) :=
  ((C124_read turnTable turnTable_reordering env tableEnv tableEnv_retabled tColors _ .nullptr 500).2).trans (by with_unfolding_all rfl)

theorem host_same : SameHost (tables turnTable) host host where
  size _ := rfl
  align _ := rfl
  charSigned := rfl
  table _ := rfl

example : parseBool tableEnv host (re (tables turnTable) (.tuple [tInt, tColor])) (.document (.arr [.num (.int 7), .str (lit "pink")])) .nullptr 0 = .rejected :=
  ((C124_parse turnTable turnTable_reordering env tableEnv tableEnv_retabled host host host_same (.tuple [tInt, tColor]) _ .nullptr 0).1).trans
    (by with_unfolding_all rfl)

example : parseBool tableEnv host (re (tables turnTable) tColor) (.document (.str (lit "green"))) .nullptr 0 = .accepted (.prim (.int 1)) :=
  ((C124_parse turnTable turnTable_reordering env tableEnv tableEnv_retabled host host host_same tColor _ .nullptr 0).1).trans (by with_unfolding_all rfl)

/-- **C124, repetitions.** The order matters for a table that gives an enumerator two names, and for one that gives a name to two enumerators: the first entry
is used. -/
theorem C124_repeated :
    serializeToDocument env (.prim (.enumStr [(1, lit "gray"), (1, lit "grey")])) (.prim (.int 1)) = some (some (.str (lit "gray"))) ∧
    serializeToDocument env (.prim (.enumStr [(1, lit "grey"), (1, lit "gray")])) (.prim (.int 1)) = some (some (.str (lit "grey"))) ∧
    deserializeBool env (.prim (.enumStr [(1, lit "x"), (2, lit "x")])) (.str (lit "x")) .nullptr 0 = some (true, .prim (.int 1)) ∧
    deserializeBool env (.prim (.enumStr [(2, lit "x"), (1, lit "x")])) (.str (lit "x")) .nullptr 0 = some (true, .prim (.int 2)) := by
  refine ⟨?_, ?_, ?_, ?_⟩ <;> with_unfolding_all rfl

example : Distinct [(0, lit "red"), (1, lit "green")] := by decide

/-! ## C125 -/

/-- **C125, writing.** What is written depends on the members of classes only: if every class is replaced by one with the same members (two classes may be
replaced by the same one), both writers produce the same. -/
theorem C125_write (g : Nat → Nat) (env env' : Env) (hr : Retabled (named g) env env') (t : Ty) (v : Val) (before : List Event) :
    serializeToDocument env' (re (named g) t) v = serializeToDocument env t v ∧ writeToString env' (re (named g) t) v before = writeToString env t v before :=
  ⟨by simp only [serializeToDocument, ser_re hr fun _ _ => rfl], by simp only [writeToString, wr_re hr fun _ _ => rfl]⟩

/-- **C125, reading.** If different classes are replaced by different ones with the same members, both readers of the DOM do the same, also for shared objects and
references. -/
theorem C125_read (g : Nat → Nat) (hg : ∀ c d, g c = g d → c = d) (env env' : Env) (hr : Retabled (named g) env env') (t : Ty) (root : Json) (target : Val)
    (next : Nat) : deserializeBool env' (re (named g) t) root target next = deserializeBool env t root target next ∧
      deserializeThrow env' (re (named g) t) root next = deserializeThrow env t root next := by
  have key := fun exc target => deser_re hr (fun _ _ => rfl) ⟨fun _ _ h => h, hg⟩ root root exc t target [] [] ⟨[], next⟩
  have hs : reState (named g) ⟨[], next⟩ = ⟨[], next⟩ := rfl
  simp only [hs] at key
  constructor
  · simp only [deserializeBool, key]
    cases deser env root root false t target [] [] ⟨[], next⟩ <;> rfl
  · simp only [deserializeThrow, key, hr.fresh]
    cases deser env root root true t (env.fresh t) [] [] ⟨[], next⟩ <;> rfl

/-- **C125, parsing.** Both forms of the parser do the same for every class replaced by one with the same members, with handlers of the same size. -/
theorem C125_parse (g : Nat → Nat) (env env' : Env) (hr : Retabled (named g) env env') (host host' : Host) (hh : SameHost (named g) host host') (t : Ty)
    (feed : Feed) (target : Val) (next : Nat) :
    parseBool env' host' (re (named g) t) feed target next = parseBool env host t feed target next ∧
    parseThrow env' host' (re (named g) t) feed next = parseThrow env host t feed next :=
  ⟨parseBool_re hr (fun _ _ => rfl) hh t feed target next, by simp only [parseThrow, hr.fresh, parseBool_re hr (fun _ _ => rfl) hh]⟩

/-- Classes 1 and 6 exchanged. -/
def swapped (c : Nat) : Nat := if c = 1 then 6 else if c = 6 then 1 else c

theorem swapped_swapped (c : Nat) : swapped (swapped c) = c := by
  unfold swapped
  split <;> (try split) <;> simp_all

/-- The demo program with `Item` as class 6, under another name. -/
def movedEnv : Env := { env with classes := fun c => ⟨lit "Other", (env.members (swapped c)).map (reMember (named swapped))⟩ }

theorem movedEnv_retabled : Retabled (named swapped) env movedEnv where
  members c := by
    show (env.members (swapped (swapped c))).map _ = _
    rw [swapped_swapped]
  endian := rfl
  foreign := rfl
  junk := rfl
  clk := rfl
  order := rfl
  less := rfl
  fragment := rfl
  fresh _ := rfl
  ctor _ := rfl

/-- The host for the moved classes. -/
def movedHost : Host := { host with table := fun c => host.table (swapped c) }

theorem movedHost_same : SameHost (named swapped) host movedHost where
  size _ := rfl
  align _ := rfl
  charSigned := rfl
  table c := by
    show host.table (swapped (swapped c)) = _
    rw [swapped_swapped]

/-- Two pointers to one `Item`, inside class 2. -/
def jTwice : Json := .obj [(lit "left", .obj [(lit "id", .num (.int 7))]), (lit "right", .obj [(lit "$ref", .str (lit "/left"))])]

example : deserializeBool movedEnv (.cls 2) jTwice .nullptr 500 =
    some (true, .obj [.sptr 500 (.obj [.prim (.int 7), .absent, .prim .null]), .sptr 500 (.obj [.prim (.int 7), .absent, .prim .null])]) :=
  ((C125_read swapped (fun c d h => by rw [← swapped_swapped c, h, swapped_swapped]) env movedEnv movedEnv_retabled (.cls 2) jTwice .nullptr 500).1).trans
    (by with_unfolding_all rfl)

example : serializeToDocument movedEnv (.cls 6) item8 = some (some (.obj [(lit "id", .num (.int 8)), (lit "count", .num (.int 0))])) :=
  ((C125_write swapped env movedEnv movedEnv_retabled (.cls 1) item8 []).1).trans (by with_unfolding_all rfl)

example : parseBool movedEnv movedHost (.cls 0) (.document (.obj [(lit "z", .null)])) .nullptr 0 = .rejected :=
  ((C125_parse swapped env movedEnv movedEnv_retabled host movedHost movedHost_same (.cls 0) _ .nullptr 0).1).trans (by with_unfolding_all rfl)

/-- A program with a copy of class `Item` as class 6. -/
def twinEnv : Env := { env with classes := fun c => if c = 6 then ⟨lit "Twin", item.members⟩ else env.classes c }

/-- Class 6 becomes class 1. -/
def merged (c : Nat) : Nat := if c = 6 then 1 else c

theorem twinEnv_retabled : Retabled (named merged) twinEnv twinEnv where
  members c := match c with
    | 0 | 1 | 2 | 3 | 4 | 5 | 6 => rfl
    | _ + 7 => rfl
  endian := rfl
  foreign := rfl
  junk := rfl
  clk := rfl
  order := rfl
  less := rfl
  fragment := rfl
  fresh _ := rfl
  ctor _ := rfl

/-- **C125, merged classes.** If two classes with the same members become one, a reference from a pointer to the one to an object of the other, which was undefined
behaviour (deserialize_pointer.hpp:54), is read. -/
theorem C125_merged :
    Retabled (named merged) twinEnv twinEnv ∧
    deserializeBool twinEnv (.tuple [.sptr (.cls 1), .sptr (.cls 6)]) (.arr [.obj [(lit "id", .num (.int 7))], .obj [(lit "$ref", .str (lit "/0"))]]) .nullptr 500 = none ∧
    deserializeBool twinEnv (re (named merged) (.tuple [.sptr (.cls 1), .sptr (.cls 6)]))
      (.arr [.obj [(lit "id", .num (.int 7))], .obj [(lit "$ref", .str (lit "/0"))]]) .nullptr 500 =
      some (true, .tup [.sptr 500 (.obj [.prim (.int 7), .absent, .prim .null]), .sptr 500 (.obj [.prim (.int 7), .absent, .prim .null])]) := by
  refine ⟨twinEnv_retabled, ?_, ?_⟩ <;> with_unfolding_all rfl

end Verif.Props
