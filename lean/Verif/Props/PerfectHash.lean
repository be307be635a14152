import Verif.PerfectHashTerm

/-!
# Properties C19 – C22: member-name lookup

`build cs names fuel` is the model of the construction of the lookup table of a class with member
names `names`; `cs` says whether plain `char` is signed; the unbounded seed search is cut off after
`fuel` rounds (result `outOfFuel`).
-/

namespace Verif.Props
open Verif.PerfectHash

/-- Names of a class in the repository's test suite (/repo/test/example_classes.hpp:165-176). -/
def demoNames : List Str :=
  ["bool_value", "bool_list", "int_value", "int_list", "string_value", "string_list", "object_value",
   "object_list"].map lit

theorem demo_builds : ∃ t, build true demoNames 8 = .ok t := 
  ⟨{ indexMap := [6, 3, 5, 4, 0, 1, 7, 2]
     G := [0, 0, 18446744073709551615, 18446744073709551614, 2, 18446744073709551613,
       18446744073709551608, 2] }, by decide +kernel⟩

/-- **C19.** Once the table is built (seeds below `2^63`), looking up the `k`-th name gives `k`. -/
theorem C19_lookup_exact (cs : Bool) (names : List Str) (fuel : Nat) (t : Table)
    (hlen : names.length ≤ 2^63) (hfuel : fuel < 2^63) (hb : build cs names fuel = .ok t)
    (k : Nat) (name : Str) (hk : names[k]? = some name) :
    index cs t names.length name = some k := by
  have hlt : k < names.length := by
    rcases Nat.lt_or_ge k names.length with h | h
    · exact h
    · rw [List.getElem?_eq_none h] at hk; cases hk
  have ok := buildWith_ok (by omega) hlen hfuel hb
  obtain ⟨d, h1, h2⟩ := ok.lookup k hlt
  have hh : ∀ d, itemHash cs names d k = hash cs d name := by
    intro d; simp [itemHash, hk]
  rw [hh] at h1
  unfold index indexWith
  rw [h1]
  simp only
  unfold slot at h2
  rw [hh] at h2
  split
  · rename_i hd; rw [if_pos hd] at h2; exact h2
  · rename_i hd; rw [if_neg hd] at h2; exact h2

example : ∃ t, build true demoNames 8 = .ok t ∧ index true t 8 (lit "int_list") = some 3 := by
  obtain ⟨t, ht⟩ := demo_builds
  exact ⟨t, ht, C19_lookup_exact true demoNames 8 t (by decide) (by decide) ht 3 _ (by decide)⟩

/-- **C19.** As a consequence, construction only ever succeeds for pairwise distinct names. -/
theorem C19_built_names_distinct (cs : Bool) (names : List Str) (fuel : Nat) (t : Table)
    (hlen : names.length ≤ 2^63) (hfuel : fuel < 2^63) (hb : build cs names fuel = .ok t) :
    names.Nodup := by
  rw [List.nodup_iff_getElem?_ne_getElem?]
  intro i j hij hj heq
  have hi : i < names.length := by omega
  have e1 := C19_lookup_exact cs names fuel t hlen hfuel hb i names[i] (by simp [hi])
  have e2 := C19_lookup_exact cs names fuel t hlen hfuel hb j names[i]
    (by rw [← heq, List.getElem?_eq_getElem hi])
  rw [e1] at e2
  cases e2
  omega

example : demoNames.Nodup := by
  obtain ⟨t, ht⟩ := demo_builds
  exact C19_built_names_distinct true demoNames 8 t (by decide) (by decide) ht

/-- **C20.** Looking up any byte string in a built table never leaves the arrays and yields a valid
member position. -/
theorem C20_lookup_in_bounds (cs : Bool) (names : List Str) (fuel : Nat) (t : Table)
    (hne : names ≠ []) (hlen : names.length ≤ 2^63) (hfuel : fuel < 2^63)
    (hb : build cs names fuel = .ok t) (key : Str) :
    ∃ k, index cs t names.length key = some k ∧ k < names.length := by
  have hn : 0 < names.length := List.length_pos_of_ne_nil hne
  have ok := buildWith_ok hn hlen hfuel hb
  have hlt : ∀ x, x % names.length < names.length := fun x => Nat.mod_lt _ hn
  have hg : ∃ d, t.G[hash cs 0 key % names.length]? = some d :=
    ⟨_, List.getElem?_eq_getElem (by rw [ok.lenG]; exact hlt _)⟩
  obtain ⟨d, hd⟩ := hg
  unfold index indexWith
  rw [hd]
  simp only
  split
  · rename_i hge
    have := ok.seeds _ _ hd
    have hlt' : 2^64 - 1 - d < t.indexMap.length := by rw [ok.lenI]; omega
    exact ⟨_, List.getElem?_eq_getElem hlt', ok.idx _ _ (List.getElem?_eq_getElem hlt')⟩
  · have hlt' : hash cs d key % names.length < t.indexMap.length := by rw [ok.lenI]; exact hlt _
    exact ⟨_, List.getElem?_eq_getElem hlt', ok.idx _ _ (List.getElem?_eq_getElem hlt')⟩

example : ∃ t, build true demoNames 8 = .ok t ∧
    ∃ k, index true t 8 [0, 255, 128] = some k ∧ k < 8 := by
  obtain ⟨t, ht⟩ := demo_builds
  exact ⟨t, ht, C20_lookup_in_bounds true demoNames 8 t (by decide) (by decide) (by decide) ht _⟩

/-- The obvious member lookup: position of the first name equal to the key. -/
def lookupSpec (names : List Str) (key : Str) : Dispatch :=
  match names.findIdx? (· == key) with
  | some k => .member k
  | none => .reject

theorem lookupSpec_member {names : List Str} (hnd : names.Nodup) {k : Nat} {key : Str}
    (hk : names[k]? = some key) : lookupSpec names key = .member k := by
  have hlt : k < names.length := by
    rcases Nat.lt_or_ge k names.length with h | h
    · exact h
    · rw [List.getElem?_eq_none h] at hk; cases hk
  have hke : names[k] = key := by rw [List.getElem?_eq_getElem hlt] at hk; exact Option.some.inj hk
  have : names.findIdx? (· == key) = some k := by
    rw [List.findIdx?_eq_some_iff_getElem]
    refine ⟨hlt, by simp [hke], ?_⟩
    intro j hj
    simp only [beq_iff_eq]
    intro he
    have := (List.Nodup.getElem_inj_iff hnd (hi := by omega) (hj := hlt)).1 (he.trans hke.symm)
    omega
  unfold lookupSpec
  rw [this]

theorem lookupSpec_reject {names : List Str} {key : Str} (hk : key ∉ names) :
    lookupSpec names key = .reject := by
  have : names.findIdx? (· == key) = none := by
    rw [List.findIdx?_eq_none_iff]
    intro x hx
    simp only [beq_eq_false_iff_ne, ne_eq]
    rintro rfl
    exact hk hx
  unfold lookupSpec
  rw [this]

/-- **C20, C22.** The hash-based key handler of the object parser implements the obvious lookup:
member names select their member, every other byte string is rejected, no memory error occurs. -/
theorem C20_hash_dispatch_exact (cs : Bool) (names : List Str) (fuel : Nat) (t : Table)
    (hne : names ≠ []) (hlen : names.length ≤ 2^63) (hfuel : fuel < 2^63)
    (hb : build cs names fuel = .ok t) (key : Str) :
    dispatchHash cs t names key = lookupSpec names key := by
  have hnd := C19_built_names_distinct cs names fuel t hlen hfuel hb
  by_cases hmem : key ∈ names
  · obtain ⟨k, hk⟩ := List.getElem?_of_mem hmem
    unfold dispatchHash
    rw [C19_lookup_exact cs names fuel t hlen hfuel hb k key hk, lookupSpec_member hnd hk]
    simp [hk]
  · obtain ⟨k, hk, hlt⟩ := C20_lookup_in_bounds cs names fuel t hne hlen hfuel hb key
    unfold dispatchHash
    rw [hk, lookupSpec_reject hmem]
    simp only
    rw [List.getElem?_eq_getElem hlt]
    simp only
    rw [if_pos]
    intro he
    exact hmem (he ▸ List.getElem_mem hlt)

example : ∃ t, build true demoNames 8 = .ok t ∧
    dispatchHash true t demoNames (lit "string_list") = .member 5 ∧
    dispatchHash true t demoNames (lit "strung_list") = .reject := by
  obtain ⟨t, ht⟩ := demo_builds
  refine ⟨t, ht, ?_, ?_⟩
  · rw [C20_hash_dispatch_exact true demoNames 8 t (by decide) (by decide) (by decide) ht]
    decide +kernel
  · rw [C20_hash_dispatch_exact true demoNames 8 t (by decide) (by decide) (by decide) ht]
    decide +kernel

/-- **C22.** Whatever the number of members, the key handler implements the obvious lookup. For one
and two members no table is involved; a class with the same name twice is a pair with equal names,
for which the first member is selected. -/
theorem C22_dispatch_exact (cs : Bool) (names : List Str) (fuel : Nat) (t : Table)
    (hne : names ≠ []) (hlen : names.length ≤ 2^63) (hfuel : fuel < 2^63)
    (hb : 3 ≤ names.length → build cs names fuel = .ok t) (key : Str) :
    dispatch cs t names key = lookupSpec names key := by
  unfold dispatch
  split
  · rename_i a
    unfold dispatchSolo lookupSpec
    by_cases h : a = key <;> simp [h, List.findIdx?_cons]
  · rename_i a b
    unfold dispatchPair lookupSpec
    by_cases h : key = a
    · subst h; simp [List.findIdx?_cons]
    · by_cases h' : key = b
      · subst h'; simp [List.findIdx?_cons, Ne.symm h, h]
      · simp [List.findIdx?_cons, Ne.symm h, Ne.symm h', h, h']
  · rename_i h1 h2
    refine C20_hash_dispatch_exact cs names fuel t hne hlen hfuel (hb ?_) key
    match names, hne, h1, h2 with
    | [a], _, h1, _ => exact absurd rfl (h1 a)
    | [a, b], _, _, h2 => exact absurd rfl (h2 a b)
    | a :: b :: c :: r, _, _, _ => simp

example : dispatch true ⟨[], []⟩ [lit "first", lit "second"] (lit "second") = .member 1 := by
  rw [C22_dispatch_exact true _ 0 ⟨[], []⟩ (by decide) (by decide) (by decide) (by decide)]
  decide +kernel

/-- **C21.** The construction never ends with an exception. -/
theorem C21_build_never_throws (cs : Bool) (names : List Str) (fuel : Nat) (hne : names ≠ [])
    (hlen : names.length ≤ 2^63) (hfuel : fuel < 2^63) : build cs names fuel ≠ .thrown :=
  buildWith_ne_thrown (List.length_pos_of_ne_nil hne) hlen hfuel

example : build false demoNames 3 ≠ .thrown :=
  C21_build_never_throws false demoNames 3 (by decide) (by decide) (by decide)

/-- **C21, full statement refuted, general form.** If a class has `2^p` members (`p ≤ 8`) and two of
the names have equal length and bytes pairwise congruent modulo `2^p`, then no seed separates them:
the construction does not terminate. -/
theorem C21_build_diverges (cs : Bool) (names : List Str) (p : Nat) (hp : p ≤ 8)
    (hlen : names.length = 2^p) (i j : Nat) (hij : i < j) (s s' : Str)
    (hi : names[i]? = some s) (hj : names[j]? = some s') (hlow : LowBitsEqual p s s') (fuel : Nat) :
    build cs names fuel = .outOfFuel := by
  have hjlt : j < names.length := by
    rcases Nat.lt_or_ge j names.length with h | h
    · exact h
    · rw [List.getElem?_eq_none h] at hj; cases hj
  apply buildWith_stuck fuel hij hjlt
  intro d
  simp only [itemHash, hi, hj, Option.getD_some, hlen]
  exact hash_low cs p hp s s' hlow d

/-- **C21, full statement refuted.** The class `struct { … r, g, b, a; }` has pairwise distinct member
names, but building its lookup table never terminates ('r' and 'b' agree modulo 4). -/
theorem C21_rgba_diverges :
    ([lit "r", lit "g", lit "b", lit "a"].Nodup) ∧
    ∀ cs fuel, build cs [lit "r", lit "g", lit "b", lit "a"] fuel = .outOfFuel := by
  refine ⟨by decide, fun cs fuel => ?_⟩
  exact C21_build_diverges cs _ 2 (by decide) rfl 0 2 (by decide) (lit "r") (lit "b") (by decide) (by decide)
    (by decide) fuel

/-- **C21, partial.** With `2^p` members at most `2^p` seeds per bucket matter: the construction
terminates iff it does so within that many seeds. (Decides termination for classes of 4, 8, 16, …
members; for other sizes only the sufficient condition below is given.) -/
theorem C21_power_of_two_decides_partial (cs : Bool) (names : List Str) (p : Nat) (hp : p ≤ 63)
    (hlen : names.length = 2^p) (t : Table) :
    (∃ fuel, build cs names fuel = .ok t) ↔ build cs names (2^p) = .ok t := by
  constructor
  · rintro ⟨fuel, hb⟩
    exact buildWith_mono (fun mask taken r hr =>
      scatterFrom_period (2^p) (Nat.two_pow_pos p) (itemHash_period cs names p hp hlen) mask taken fuel r hr) t hb
  · exact fun hb => ⟨_, hb⟩

/-- Even longer names hang: red, green, blue, alpha. -/
theorem C21_red_green_blue_alpha_diverges (fuel : Nat) (t : Table) :
    build true [lit "red", lit "green", lit "blue", lit "alpha"] fuel ≠ .ok t := by
  intro hb
  have := (C21_power_of_two_decides_partial true _ 2 (by decide) rfl t).1 ⟨fuel, hb⟩
  have hd : build true [lit "red", lit "green", lit "blue", lit "alpha"] (2^2) = .outOfFuel := by decide +kernel
  rw [hd] at this
  cases this

/-- **C21, partial.** If no two names share a bucket, the table is built without any seed search. -/
theorem C21_builds_without_collisions_partial (cs : Bool) (names : List Str) (hne : names ≠ [])
    (hlen : names.length ≤ 2^63)
    (hdist : ∀ (i j : Nat) (s s' : Str), names[i]? = some s → names[j]? = some s' → i ≠ j →
      hash cs 0 s % names.length ≠ hash cs 0 s' % names.length) :
    ∃ t, ∀ fuel, build cs names fuel = .ok t := by
  have hn : 0 < names.length := List.length_pos_of_ne_nil hne
  have hbs := buckets_ok (itemHash cs names) names.length
  have hcount : ∀ i, i < names.length → (bucket (buckets (itemHash cs names) names.length) i).count ≤ 1 := by
    intro i hi
    rw [BitSet.count_eq]
    refine Decidable.byContradiction fun hlt => ?_
    match hl : BitSet.ones (bucket (buckets (itemHash cs names) names.length) i) with
    | [] => rw [hl] at hlt; simp at hlt
    | [a] => rw [hl] at hlt; simp at hlt
    | a :: b :: r =>
      have hs := BitSet.ones_sorted (bucket (buckets (itemHash cs names) names.length) i)
      rw [hl, List.pairwise_cons] at hs
      have hab := hs.1 b (by simp)
      have ha := (mem_bucket_ones hbs hi a).1 (by rw [hl]; simp)
      have hb := (mem_bucket_ones hbs hi b).1 (by rw [hl]; simp)
      have e := ha.2.trans hb.2.symm
      refine hdist a b names[a] names[b] (List.getElem?_eq_getElem ha.1) (List.getElem?_eq_getElem hb.1) (by omega) ?_
      simpa [itemHash, List.getElem?_eq_getElem ha.1, List.getElem?_eq_getElem hb.1] using e
  have hpb : ∀ fuel count, 2 ≤ count → ∀ is : List Nat, (∀ i ∈ is, i < names.length) → ∀ st,
      processBuckets (itemHash cs names) names.length fuel (buckets (itemHash cs names) names.length) count is st = .ok st := by
    intro fuel count hc is
    induction is with
    | nil => intro _ st; rfl
    | cons i is ih =>
      intro his st
      unfold processBuckets processBucket
      have := hcount i (his i (by simp))
      simp only [show (bucket (buckets (itemHash cs names) names.length) i).count ≠ count by omega,
        ne_eq, not_false_eq_true, if_true, Result.bind]
      exact ih (fun j hj => his j (by simp [hj])) st
  have hpc : ∀ fuel count st,
      processCounts (itemHash cs names) names.length fuel (buckets (itemHash cs names) names.length) count st = .ok st := by
    intro fuel count
    induction count using Nat.strongRecOn with
    | ind count ih =>
      intro st
      match count, ih with
      | 0, _ => rfl
      | 1, _ => rfl
      | c+2, ih =>
        unfold processCounts
        rw [hpb fuel (c + 2) (by omega) (List.range names.length) (by simp)]
        exact ih (c + 1) (by omega) st
  obtain ⟨st', hr, _⟩ := inv_processSingles hn hlen hbs (List.range names.length) (by simp)
    List.nodup_range (inv_init hn) (by simp)
  refine ⟨st'.table, fun fuel => ?_⟩
  unfold build buildWith
  simp only [hpc, Result.bind, hr]

example : ∃ t, ∀ fuel, build true [lit "a", lit "b", lit "c"] fuel = .ok t :=
  C21_builds_without_collisions_partial true _ (by decide) (by decide) (by
    intro i j s s' hi hj hij
    match i, j with
    | 0, 0 | 1, 1 | 2, 2 => exact absurd rfl hij
    | 0, 1 | 0, 2 | 1, 0 | 1, 2 | 2, 0 | 2, 1 => cases hi; cases hj; decide +kernel
    | n+3, _ => simp at hi
    | 0, n+3 | 1, n+3 | 2, n+3 => simp at hj)

end Verif.Props
