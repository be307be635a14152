import Verif.Props.ParseLeft

/-!
# C85: what a refused Base64 text leaves in the byte vector

`base64_decode` decodes straight into the variable. `Base64.Spec.wreck` is the specification.
-/

namespace Verif.Props
open Verif.Core Verif.Demo Verif.Base64

/-- **C85.** After `base64_decode` the argument `output` holds, for an accepted text, the bytes of the text, and for a refused one the bytes in
front of the first group with an error followed by zeros. -/
theorem C85_output (s : Str) : (∀ o, Spec.bytes s = some o → decodeOut s = o) ∧ (Spec.bytes s = none → decodeOut s = Spec.wreck s) := by
  rw [← decode_eq_bytes]
  exact ⟨fun o h => decodeOut_some h, fun h => decodeOut_none h⟩

/-- `AQID` is good, `????` is not, `BAUG` is good but not reached. -/
example : decodeOut (lit "AQID????BAUG") = [1, 2, 3, 0, 0, 0, 0, 0, 0] := ((C85_output _).2 (by decide +kernel)).trans (by decide +kernel)
/-- Padding before the end is an error of its group. -/
example : decodeOut (lit "AQ==AQID") = [0, 0, 0, 0, 0, 0] := ((C85_output _).2 (by decide +kernel)).trans (by decide +kernel)
example : decodeOut (lit "AQIDBA==") = [1, 2, 3, 4] := (C85_output _).1 _ (by decide +kernel)

/-- **C85.** Only the length and the groups up to the first one with an error have an influence on what is left. -/
theorem C85_only_good_groups (s t : Str) (hs : Spec.bytes s = none) (ht : Spec.bytes t = none) (hl : s.length = t.length)
    (k : Nat) (hk : s.take (4 * k) = t.take (4 * k)) (hbad : ∃ c ∈ s.take (4 * k), Spec.symbol c = none) : decodeOut s = decodeOut t := by
  rw [(C85_output s).2 hs, (C85_output t).2 ht]
  have htake : ∀ (u : Str) (m : Nat), (∃ c ∈ u.take m, Spec.symbol c = none) →
      (u.takeWhile fun c => (Spec.symbol c).isSome) = ((u.take m).takeWhile fun c => (Spec.symbol c).isSome) := by
    intro u
    induction u with
    | nil => intro m; simp
    | cons c u ih =>
      intro m hm
      cases m with
      | zero => simp at hm
      | succ m =>
        rw [List.take_succ_cons, List.takeWhile_cons, List.takeWhile_cons]
        cases hc : Spec.symbol c with
        | none => rfl
        | some v =>
          obtain ⟨d, hd, hn⟩ := hm
          rw [List.take_succ_cons, List.mem_cons] at hd
          have : ∃ d ∈ u.take m, Spec.symbol d = none := by
            rcases hd with rfl | hd
            · rw [hc] at hn; cases hn
            · exact ⟨d, hd, hn⟩
          simp only [Option.isSome_some, if_true, ih m this]
  have hshort : ∀ u : Str, (∃ c ∈ u, Spec.symbol c = none) → (u.takeWhile fun c => (Spec.symbol c).isSome).length < u.length := by
    intro u
    induction u with
    | nil => simp
    | cons c u ih =>
      intro hu
      rw [List.takeWhile_cons]
      cases hc : Spec.symbol c with
      | none => simp
      | some v =>
        obtain ⟨d, hd, hn⟩ := hu
        have : ∃ d ∈ u, Spec.symbol d = none := by
          rcases List.mem_cons.1 hd with rfl | hd
          · rw [hc] at hn; cases hn
          · exact ⟨d, hd, hn⟩
        simpa using ih this
  have hlt := hshort _ hbad
  have hsk := htake s _ hbad
  have htk := htake t _ (hk ▸ hbad)
  rw [← hk] at htk
  have hlen : (s.take (4 * k)).length ≤ 4 * k := by rw [List.length_take]; omega
  unfold Spec.wreck
  rw [hsk, htk, hl]
  split
  · rfl
  · dsimp only
    generalize (List.takeWhile (fun c => (Spec.symbol c).isSome) (s.take (4 * k))).length = m at hlt
    have hm : 4 * (m / 4) ≤ 4 * k := by omega
    have : s.take (4 * (m / 4)) = t.take (4 * (m / 4)) := by
      have := congrArg (List.take (4 * (m / 4))) hk
      rwa [List.take_take, List.take_take, Nat.min_eq_left hm] at this
    rw [this]

example : decodeOut (lit "AQID????BAUG") = decodeOut (lit "AQID????====") :=
  C85_only_good_groups _ _ (by decide +kernel) (by decide +kernel) (by decide +kernel) 2 (by decide +kernel) ⟨63, by decide +kernel, by decide +kernel⟩

/-- **C85.** `deserialize` of a byte vector returns `false` and leaves this in the variable; the old contents are lost. -/
theorem C85_dom (env : Env) (s : Str) (hs : Spec.bytes s = none) (old : Val) (n : Nat) :
    deserializeBool env (.prim .bytes) (.str s) old n = some (false, .prim (.bytes (Spec.wreck s))) := by
  have hd : decode s = none := by rw [decode_eq_bytes]; exact hs
  rw [deserializeBool, deser_prim, desPrim_bytes, hd, ← decodeOut_none hd]
  rfl

example : deserializeBool Demo.env (.prim .bytes) (.str (lit "AQID????")) (.prim (.bytes [7, 8, 9, 10])) 0 = some (false, .prim (.bytes [1, 2, 3, 0, 0, 0])) :=
  (C85_dom Demo.env _ (by decide +kernel) _ 0).trans (congrArg (fun b => some (false, Val.prim (.bytes b))) (by decide +kernel))

/-- **C85, negation.** The result of a member is overwritten by the next one (C32), so that `deserialize` returns `true` for an object whose bytes
have been replaced by zeros. -/
theorem C85_masked (env : Env) (c : Nat) (hc : env.members c = [⟨lit "data", .required, .prim .bytes⟩, ⟨lit "flag", .required, .prim .bool⟩])
    (s : Str) (hs : Spec.bytes s = none) (b old : Bool) (data : Str) (n : Nat) :
    deserializeBool env (.cls c) (.obj [(lit "data", .str s), (lit "flag", .bool b)]) (.obj [.prim (.bytes data), .prim (.bool old)]) n =
      some (true, .obj [.prim (.bytes (Spec.wreck s)), .prim (.bool b)]) := by
  have hd : decode s = none := by rw [decode_eq_bytes]; exact hs
  rw [← decodeOut_none hd]
  have hk : ¬ lit "data" = lit "flag" := by decide +kernel
  rw [deserializeBool, deser_cls]
  simp [hc, runMembers, findMember, deser_prim, hd, desPrim, spoil, Val.members, DRes.reject, DRes.map, hk]

/-- A program with such a class. -/
def dataEnv : Env := { Demo.env with classes := fun _ => ⟨lit "Data", [⟨lit "data", .required, .prim .bytes⟩, ⟨lit "flag", .required, .prim .bool⟩]⟩ }

/-- `{"data": "AQID????", "flag": true}` -/
example : deserializeBool dataEnv (.cls 0) (.obj [(lit "data", .str (lit "AQID????")), (lit "flag", .bool true)]) (.obj [.prim (.bytes [7, 8]), .prim (.bool false)]) 0 =
    some (true, .obj [.prim (.bytes [1, 2, 3, 0, 0, 0]), .prim (.bool true)]) :=
  (C85_masked dataEnv 0 rfl _ (by decide +kernel) true false [7, 8] 0).trans
    (congrArg (fun b => some (true, Val.obj [.prim (.bytes b), .prim (.bool true)])) (by decide +kernel))

end Verif.Props
