import Verif.Size
import Verif.TextIO

/-!
# The size of texts

A document is no larger than its text.
-/

namespace Verif.Core
open Verif.Text Verif.Numeric

theorem utf8_length (n : Nat) : (utf8 n).length ≤ 4 := by
  unfold utf8
  split
  · simp
  · split
    · simp
    · split <;> simp

theorem chars_length {d t : Str} (h : Chars d t) : d.length ≤ t.length := by
  induction h with
  | nil => simp
  | plain c _ _ _ _ ih => simpa using ih
  | esc c e _ _ ih => simp; omega
  | unicode h1 h2 h3 h4 n _ _ _ ih => have := utf8_length n; simp; omega
  | surrogates h1 h2 h3 h4 l1 l2 l3 l4 n m _ _ _ _ _ ih =>
    have := utf8_length (0x10000 + (n - 0xD800) * 1024 + (m - 0xDC00))
    simp only [List.length_append, List.length_cons]
    omega

theorem intPart_length {i : Str} (h : IntPart i) : 1 ≤ i.length := by
  rcases h with rfl | ⟨c, r, rfl, _⟩ <;> simp

theorem numText_length {C : NumConv} {n : JsonNum} {s : Str} (h : NumText C n s) : 1 ≤ s.length := by
  cases h with
  | int neg i hi _ => have := intPart_length hi; simp; omega
  | big neg i f hi _ _ => have := intPart_length hi; simp; omega
  | real neg i fr ex f hi _ _ _ _ => have := intPart_length hi; simp; omega

mutual
theorem den_length {C : NumConv} : ∀ {j : Json} {s : Str}, Den C j s → j.extent ≤ s.length
  | _, _, .null => by simp [Json.extent, lit]
  | _, _, .tt => by simp [Json.extent, lit]
  | _, _, .ff => by simp [Json.extent, lit]
  | _, _, .num h => by have := numText_length h; simpa [Json.extent] using this
  | _, _, .str h => by have := chars_length h; simp [Json.extent]; omega
  | _, _, .arrNil _ => by simp [Json.extent, extentItems]
  | _, _, .arr h => by have := items_length h; simp [Json.extent]; omega
  | _, _, .objNil _ => by simp [Json.extent, extentFields]
  | _, _, .obj h => by have := fields_length h; simp [Json.extent]; omega

theorem items_length {C : NumConv} : ∀ {js : List Json} {s : Str}, Items C js s → extentItems js ≤ s.length
  | _, _, .one _ h _ => by have := den_length h; simp [extentItems]; omega
  | _, _, .more _ h _ hs => by have h1 := den_length h; have h2 := items_length hs; simp [extentItems]; omega

theorem fields_length {C : NumConv} : ∀ {ms : List (Str × Json)} {s : Str}, Fields C ms s → extentFields ms ≤ s.length
  | _, _, .one _ hk _ _ h _ => by have h1 := den_length h; have h2 := chars_length hk; simp [extentFields]; omega
  | _, _, .more _ hk _ _ h _ hs => by
    have h1 := den_length h
    have h2 := chars_length hk
    have h3 := fields_length hs
    simp [extentFields]
    omega
end

theorem text_length {C : NumConv} {j : Json} {s : Str} (h : Denotes C j s) : j.extent ≤ s.length := by
  obtain ⟨w1, t, w2, _, ht, _, rfl⟩ := h
  have := den_length ht
  simp
  omega

end Verif.Core
