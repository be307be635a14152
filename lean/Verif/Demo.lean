import Verif.WriteTotal

/-!
# A small program

Classes and values used in the examples beside the theorems.
-/

namespace Verif.Demo
open Verif.Core Verif.Numeric Verif.EnumConv

abbrev int32 : IntTy := ⟨.w32, true⟩
abbrev tInt : Ty := .prim (.int int32)
abbrev tDbl : Ty := .prim (.flt .double)
abbrev tStr : Ty := .prim .str
abbrev tColor : Ty := .prim (.enumStr [(0, lit "red"), (1, lit "green"), (2, lit "blue")])

/-- class 0: `struct Point { double x; double y; }` -/
def point : Class := ⟨lit "Point", [⟨lit "x", .required, tDbl⟩, ⟨lit "y", .required, tDbl⟩]⟩

/-- class 1: `struct Item { int id; std::optional<std::string> note; int count = ...; }` -/
def item : Class := ⟨lit "Item", [⟨lit "id", .required, tInt⟩, ⟨lit "note", .optional, tStr⟩, ⟨lit "count", .default, tInt⟩]⟩

/-- class 2: `struct Both { std::shared_ptr<Item> left; std::shared_ptr<Item> right; }` -/
def both : Class := ⟨lit "Both", [⟨lit "left", .required, .sptr (.cls 1)⟩, ⟨lit "right", .required, .sptr (.cls 1)⟩]⟩

/-- class 3: `struct Bag { std::set<std::shared_ptr<Item>> items; std::shared_ptr<Item> best; }` -/
def bag : Class := ⟨lit "Bag", [⟨lit "items", .required, .set (.sptr (.cls 1))⟩, ⟨lit "best", .required, .sptr (.cls 1)⟩]⟩

/-- class 4: `struct Tree { int value; std::vector<Tree> children; }` -/
def tree : Class := ⟨lit "Tree", [⟨lit "value", .required, tInt⟩, ⟨lit "children", .required, .vec (.cls 4)⟩]⟩

/-- class 5: one member of each kind of type without shared objects -/
def sample : Class := ⟨lit "Sample", [⟨lit "flag", .required, .prim .bool⟩, ⟨lit "when", .required, .prim .time⟩,
  ⟨lit "day", .required, .prim .date⟩, ⟨lit "color", .required, tColor⟩, ⟨lit "data", .required, .prim .bytes⟩,
  ⟨lit "tags", .required, .set tStr⟩, ⟨lit "scores", .required, .map false tInt⟩, ⟨lit "choice", .required, .variant [tInt, tStr]⟩,
  ⟨lit "factor", .optional, .uptr tDbl⟩, ⟨lit "pair", .required, .tuple [tInt, .prim .null]⟩,
  ⟨lit "fixed", .required, .arr 2 tInt⟩]⟩

/-- Order of integers and of pointers; other values are not compared in the examples. -/
def less : Val → Val → Bool
  | .prim (.int a), .prim (.int b) => decide (a < b)
  | .sptr a _, .sptr b _ => decide (a < b)
  | .prim (.str a), .prim (.str b) => strLess a b
  | _, _ => false

/-- The program. -/
def env : Env where
  classes := fun n => match n with
    | 0 => point
    | 1 => item
    | 2 => both
    | 3 => bag
    | 5 => sample
    | _ => tree
  endian := .little
  foreign := fun _ => 0
  junk := fun _ => []
  clk := 1000000000
  order := fun _ ks => ks.reverse
  less := less
  fresh := fun _ => .prim .null
  ctor := fun _ => .prim .null
  fragment := fun _ => none

theorem fair : env.Fair := fun _ _ _ => List.reverse_perm _

/-- `Item{7, "ok", 2}` -/
def item7 : Val := .obj [.prim (.int 7), .present (.prim (.str (lit "ok"))), .prim (.int 2)]
/-- `Item{8, std::nullopt, 0}` -/
def item8 : Val := .obj [.prim (.int 8), .absent, .prim (.int 0)]

/-- The shared objects of the examples. -/
def heap : Heap := fun a => match a with
  | 100 => some (.cls 1, item7)
  | 200 => some (.cls 1, item8)
  | _ => none

/-- `Point{3.0, NaN}` -/
def badPoint : Val := .obj [.prim (.flt (.fin false 1 0)), .prim (.flt .nan)]
/-- `Point{3.0, 7.0}` -/
def goodPoint : Val := .obj [.prim (.flt (.fin false 1 0)), .prim (.flt (.fin false 3 0))]
/-- A `Both` with the same object twice. -/
def twice : Val := .obj [.sptr 100 item7, .sptr 100 item7]
/-- A vector of `Both`s with sharing across elements. -/
def crowd : Val := .seq [.obj [.sptr 100 item7, .sptr 200 item8], .obj [.sptr 200 item8, .sptr 100 item7]]
/-- A `Bag` whose best item is one of its items. -/
def bagVal : Val := .obj [.set [.sptr 100 item7, .sptr 200 item8], .sptr 200 item8]

/-- A value of class `Sample`. -/
def sampleVal : Val := .obj [.prim (.bool true), .prim (.time (1700000000 * 1000000000)), .prim (.date 2024 2 29), .prim (.int 1),
  .prim (.bytes [0, 255]), .set [.prim (.str (lit "a")), .prim (.str (lit "b"))],
  .map [(lit "k", .prim (.int 1)), (lit "z", .prim (.int (-2)))], .alt 1 (.prim (.str (lit "hi"))),
  .present (.uptr (.prim (.flt (.fin false 3 0)))), .tup [.prim (.int 3), .prim .null], .tup [.prim (.int 5), .prim (.int 6)]]

theorem ty_item7 : HasTy env heap item7 (.cls 1) := by
  simp only [item7, HasTy, Env.members, env, item, MembersTy, PrimTy, and_true, true_and]
  exact ⟨by decide, by decide⟩

theorem ty_item8 : HasTy env heap item8 (.cls 1) := by
  simp only [item8, HasTy, Env.members, env, item, MembersTy, PrimTy, and_true, true_and]
  exact ⟨by decide, by decide⟩

theorem ty_twice : HasTy env heap twice (.cls 2) := by
  have h := ty_item7
  simp only [twice, HasTy, Env.members, env, both, MembersTy, and_true]
  exact ⟨⟨rfl, h⟩, ⟨rfl, h⟩⟩

theorem ty_crowd : HasTy env heap crowd (.vec (.cls 2)) := by
  have h := ty_item7
  have h' := ty_item8
  simp only [crowd, HasTy, AllTy, Env.members, env, both, MembersTy, and_true]
  exact ⟨⟨⟨rfl, h⟩, ⟨rfl, h'⟩⟩, ⟨⟨rfl, h'⟩, ⟨rfl, h⟩⟩⟩

theorem ty_bag : HasTy env heap bagVal (.cls 3) := by
  have h := ty_item7
  have h' := ty_item8
  simp only [bagVal, HasTy, AllTy, Env.members, env, bag, MembersTy, and_true]
  exact ⟨⟨⟨⟨rfl, h⟩, ⟨rfl, h'⟩⟩, by simp [less]⟩, ⟨rfl, h'⟩⟩

theorem ty_badPoint : HasTy env heap badPoint (.cls 0) := by
  simp only [badPoint, HasTy, Env.members, env, point, MembersTy, PrimTy, and_true]
  exact ⟨by decide, by decide⟩

theorem ty_goodPoint : HasTy env heap goodPoint (.cls 0) := by
  simp only [goodPoint, HasTy, Env.members, env, point, MembersTy, PrimTy, and_true]
  exact ⟨by decide, by decide⟩

theorem ty_sample_any (H : Heap) : HasTy env H sampleVal (.cls 5) := by
  simp only [sampleVal, HasTy, HasTys, AllTy, ValsTy, Env.members, env, sample, MembersTy, PrimTy, and_true, true_and]
  refine ⟨by decide, ⟨by unfold DateTime.ValidDate; decide, by decide +kernel⟩, ?_, ?_, ?_, by decide, by decide, ?_⟩
  · simp [less, strLess, lit]
  · exact ⟨⟨by decide, by decide⟩, by unfold Ascending; decide +kernel⟩
  · exact ⟨tStr, rfl, by simp [HasTy, PrimTy]⟩
  · exact ⟨rfl, by decide, by decide⟩

end Verif.Demo
