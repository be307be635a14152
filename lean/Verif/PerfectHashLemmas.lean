import Verif.PerfectHash
import Mathlib.Data.Fintype.Card
import Mathlib.Data.Fintype.Pigeonhole

namespace Verif.BitSet

theorem get_set (b : BitSet) (k j : Nat) :
    (b.set k).get j = if j = k ∧ k < b.length then true else b.get j := by
  unfold BitSet.get BitSet.set
  rw [List.getElem?_set]
  by_cases h : k = j
  · subst h
    by_cases hk : k < b.length
    · simp [hk]
    · simp [hk]
  · simp [h, Ne.symm h]

theorem length_set (b : BitSet) (k : Nat) : (b.set k).length = b.length := by
  simp [BitSet.set]

theorem get_empty (n k : Nat) : (empty n).get k = false := by
  simp only [empty, get]
  by_cases h : k < n <;> simp [h]

theorem get_lt {b : BitSet} {k : Nat} (h : b.get k = true) : k < b.length := by
  unfold get at h
  refine Decidable.byContradiction fun h' => ?_
  rw [List.getElem?_eq_none (by omega)] at h
  simp at h

/-- Positions of the non-zero bits, the first element of the list being position `k`. -/
def onesFrom : BitSet → Nat → List Nat
  | [], _ => []
  | v :: vs, k => if v then k :: onesFrom vs (k + 1) else onesFrom vs (k + 1)

/-- Positions of the non-zero bits in increasing order. -/
def ones (b : BitSet) : List Nat := onesFrom b 0

theorem mem_onesFrom (b : BitSet) (k j : Nat) : j ∈ onesFrom b k ↔ k ≤ j ∧ b.get (j - k) = true := by
  induction b generalizing k with
  | nil => simp [onesFrom, get]
  | cons v vs ih =>
    have key : ∀ j, (k + 1 ≤ j ∧ get vs (j - (k + 1)) = true) ↔ (k < j ∧ get (v :: vs) (j - k) = true) := by
      intro j
      by_cases h : k < j
      · have : j - k = (j - (k + 1)) + 1 := by omega
        rw [this]
        simp only [get, List.getElem?_cons_succ]
        constructor
        · rintro ⟨_, h2⟩; exact ⟨h, h2⟩
        · rintro ⟨_, h2⟩; exact ⟨by omega, h2⟩
      · constructor
        · intro h'; omega
        · intro h'; omega
    unfold onesFrom
    cases v
    · simp only [Bool.false_eq_true, if_false, ih, key]
      constructor
      · rintro ⟨h1, h2⟩; exact ⟨by omega, h2⟩
      · rintro ⟨h1, h2⟩
        refine ⟨?_, h2⟩
        rcases Nat.lt_or_eq_of_le h1 with h | h
        · exact h
        · subst h; simp [get] at h2
    · simp only [if_true, List.mem_cons, ih, key]
      constructor
      · rintro (h | ⟨h1, h2⟩)
        · subst h; simp [get]
        · exact ⟨by omega, h2⟩
      · rintro ⟨h1, h2⟩
        rcases Nat.lt_or_eq_of_le h1 with h | h
        · exact Or.inr ⟨h, h2⟩
        · exact Or.inl h.symm

theorem mem_ones (b : BitSet) (j : Nat) : j ∈ ones b ↔ b.get j = true := by
  simp [ones, mem_onesFrom]

theorem onesFrom_sorted (b : BitSet) (k : Nat) : (onesFrom b k).Pairwise (· < ·) := by
  induction b generalizing k with
  | nil => simp [onesFrom]
  | cons v vs ih =>
    unfold onesFrom
    cases v
    · simpa using ih (k + 1)
    · simp only [if_true, List.pairwise_cons]
      refine ⟨?_, ih (k + 1)⟩
      intro j hj
      rw [mem_onesFrom] at hj
      omega

theorem ones_sorted (b : BitSet) : (ones b).Pairwise (· < ·) := onesFrom_sorted b 0

theorem foldl_count (b : BitSet) (c k : Nat) :
    b.foldl (fun c v => if v then c + 1 else c) c = c + (onesFrom b k).length := by
  induction b generalizing c k with
  | nil => simp [onesFrom]
  | cons v vs ih =>
    cases v
    · simp only [List.foldl_cons, Bool.false_eq_true, if_false, onesFrom]; exact ih c (k + 1)
    · simp only [List.foldl_cons, if_true, onesFrom, List.length_cons]; rw [ih (c + 1) (k + 1)]; omega

theorem count_eq (b : BitSet) : b.count = (ones b).length := by
  rw [count, foldl_count b 0 0, ones]; omega

theorem firstSetFrom_eq (b : BitSet) (k : Nat) : firstSetFrom b k = (onesFrom b k).head? := by
  induction b generalizing k with
  | nil => rfl
  | cons v vs ih => cases v <;> simp [firstSetFrom, onesFrom, ih]

theorem firstSet_eq (b : BitSet) : firstSet b = (ones b).head? := firstSetFrom_eq b 0

theorem pickFrom_eq (index : Nat) (b : BitSet) (k i : Nat) (h : i ≤ index) :
    pickFrom index b k i = (onesFrom b k)[index - i]? := by
  induction b generalizing k i with
  | nil => simp [pickFrom, onesFrom]
  | cons v vs ih =>
    cases v
    · simp only [pickFrom, onesFrom, Bool.false_eq_true, if_false]; exact ih (k + 1) i h
    · simp only [pickFrom, onesFrom, if_true]
      split
      · rename_i hi; subst hi; simp
      · rename_i hi
        rw [ih (k + 1) (i + 1) (by omega)]
        have : index - i = (index - (i + 1)) + 1 := by omega
        rw [this, List.getElem?_cons_succ]

theorem pick_eq (b : BitSet) (index : Nat) : pick b index = (ones b)[index]? := by
  rw [pick, pickFrom_eq _ _ _ _ (by omega)]; rfl

theorem firstUnsetFrom_spec (b : BitSet) (k : Nat) :
    match firstUnsetFrom b k with
    | some j => k ≤ j ∧ j - k < b.length ∧ b.get (j - k) = false
    | none => ∀ i, i < b.length → b.get i = true := by
  induction b generalizing k with
  | nil => simp [firstUnsetFrom]
  | cons v vs ih =>
    cases v
    · simp [firstUnsetFrom, get]
    · simp only [firstUnsetFrom, Bool.not_true, Bool.false_eq_true, if_false]
      have := ih (k + 1)
      split
      · rename_i j hj
        rw [hj] at this
        obtain ⟨h1, h2, h3⟩ := this
        have he : j - k = (j - (k + 1)) + 1 := by omega
        refine ⟨by omega, by rw [he]; simp only [List.length_cons]; omega, ?_⟩
        rw [he]; simpa [get] using h3
      · rename_i hj
        rw [hj] at this
        intro i hi
        cases i with
        | zero => simp [get]
        | succ i =>
          have := this i (by simpa using hi)
          simpa [get] using this

theorem firstUnset_some {b : BitSet} {j : Nat} (h : firstUnset b = some j) :
    j < b.length ∧ b.get j = false := by
  have := firstUnsetFrom_spec b 0
  rw [firstUnset] at h
  rw [h] at this
  simpa using this

theorem firstUnset_none {b : BitSet} (h : firstUnset b = none) :
    ∀ i, i < b.length → b.get i = true := by
  have := firstUnsetFrom_spec b 0
  rw [firstUnset] at h
  rw [h] at this
  simpa using this

end Verif.BitSet

namespace Verif.PerfectHash
open BitSet

variable {h : Nat → Nat → Nat} {n : Nat}

/-! ### buckets -/

/-- The buckets partition the items by their hash with seed 0. -/
def BucketsOk (h : Nat → Nat → Nat) (n : Nat) (bs : List BitSet) : Prop :=
  ∀ i, i < n → (bucket bs i).length = n ∧ ∀ k, (bucket bs i).get k = true ↔ (k < n ∧ h 0 k % n = i)

theorem bucket_fold (ks : List Nat) (bs : List BitSet) (hlen : bs.length = n)
    (hks : ∀ k ∈ ks, k < n) (P : Nat → Nat → Prop)
    (hb : ∀ i, i < n → (bucket bs i).length = n ∧ ∀ k, (bucket bs i).get k = true ↔ P i k) :
    (ks.foldl (fun bs k => bs.modify (h 0 k % n) (·.set k)) bs).length = n ∧
    ∀ i, i < n → (bucket (ks.foldl (fun bs k => bs.modify (h 0 k % n) (·.set k)) bs) i).length = n ∧
      ∀ k, (bucket (ks.foldl (fun bs k => bs.modify (h 0 k % n) (·.set k)) bs) i).get k = true ↔
        (P i k ∨ (k ∈ ks ∧ h 0 k % n = i)) := by
  induction ks generalizing bs P with
  | nil => exact ⟨hlen, fun i hi => ⟨(hb i hi).1, fun k => by simpa using (hb i hi).2 k⟩⟩
  | cons k0 ks ih =>
    simp only [List.foldl_cons]
    have hlen' : (bs.modify (h 0 k0 % n) (·.set k0)).length = n := by simp [hlen]
    have hb' : ∀ i, i < n → (bucket (bs.modify (h 0 k0 % n) (·.set k0)) i).length = n ∧
        ∀ k, (bucket (bs.modify (h 0 k0 % n) (·.set k0)) i).get k = true ↔
          (P i k ∨ (k = k0 ∧ h 0 k % n = i)) := by
      intro i hi
      have hbi : bs[i]? = some (bucket bs i) := by
        simp [bucket, List.getElem?_eq_getElem (by omega : i < bs.length)]
      have key : bucket (bs.modify (h 0 k0 % n) (·.set k0)) i =
          if h 0 k0 % n = i then (bucket bs i).set k0 else bucket bs i := by
        conv => lhs; unfold bucket
        rw [List.getElem?_modify, hbi]
        by_cases hh : h 0 k0 % n = i <;> simp [hh]
      rw [key]
      by_cases hh : h 0 k0 % n = i
      · rw [if_pos hh]
        refine ⟨by rw [length_set]; exact (hb i hi).1, ?_⟩
        intro k
        rw [get_set, (hb i hi).1]
        have hk0 : k0 < n := hks k0 (by simp)
        by_cases hkk : k = k0
        · subst hkk; simp [hk0, hh]
        · simp [hkk, (hb i hi).2 k]
      · rw [if_neg hh]
        refine ⟨(hb i hi).1, ?_⟩
        intro k
        rw [(hb i hi).2 k]
        constructor
        · exact Or.inl
        · rintro (h1 | ⟨h1, h2⟩)
          · exact h1
          · subst h1; exact absurd h2 hh
    have := ih _ hlen' (fun k hk => hks k (by simp [hk])) (fun i k => P i k ∨ (k = k0 ∧ h 0 k % n = i)) hb'
    refine ⟨this.1, fun i hi => ⟨(this.2 i hi).1, fun k => ?_⟩⟩
    rw [(this.2 i hi).2 k]
    simp only [List.mem_cons]
    constructor
    · rintro ((h1 | ⟨h1, h2⟩) | ⟨h1, h2⟩)
      · exact Or.inl h1
      · exact Or.inr ⟨Or.inl h1, h2⟩
      · exact Or.inr ⟨Or.inr h1, h2⟩
    · rintro (h1 | ⟨h1 | h1, h2⟩)
      · exact Or.inl (Or.inl h1)
      · exact Or.inl (Or.inr ⟨h1, h2⟩)
      · exact Or.inr ⟨h1, h2⟩

theorem buckets_ok (h : Nat → Nat → Nat) (n : Nat) : BucketsOk h n (buckets h n) := by
  intro i hi
  have hinit : ∀ i, i < n → (bucket (List.replicate n (BitSet.empty n)) i).length = n ∧
      ∀ k, (bucket (List.replicate n (BitSet.empty n)) i).get k = true ↔ False := by
    intro i hi
    have : bucket (List.replicate n (BitSet.empty n)) i = BitSet.empty n := by
      simp [bucket, hi]
    rw [this]
    exact ⟨by simp [BitSet.empty], fun k => by simp [get_empty]⟩
  have := (bucket_fold (h := h) (List.range n) (List.replicate n (BitSet.empty n)) (by simp)
    (by simp) (fun _ _ => False) hinit).2 i hi
  refine ⟨this.1, fun k => ?_⟩
  have := this.2 k
  unfold buckets
  rw [this]
  simp

/-! ### is_distributable and scatter -/

theorem distributable_spec (hn : 0 < n) (d : Nat) (mask : BitSet) (ks : List Nat) (taken : BitSet)
    (hl : taken.length = n) : distributable h n d mask ks taken = true ↔
      (∀ k ∈ ks, mask.get k = true → taken.get (h d k % n) = false) ∧
      (ks.filter mask.get).Pairwise (fun a b => h d a % n ≠ h d b % n) := by
  induction ks generalizing taken with
  | nil => simp [distributable]
  | cons k ks ih =>
    unfold distributable
    by_cases hm : mask.get k = true
    · simp only [hm, Bool.not_true, Bool.false_eq_true, if_false]
      have hlt : h d k % n < taken.length := by rw [hl]; exact Nat.mod_lt _ hn
      by_cases ht : taken.get (h d k % n) = true
      · simp only [ht, if_true, Bool.false_eq_true, false_iff]
        rintro ⟨h1, -⟩
        have := h1 k (by simp) hm
        rw [ht] at this; cases this
      · rw [if_neg ht, ih _ (by rw [length_set, hl])]
        rw [List.filter_cons_of_pos hm, List.pairwise_cons]
        constructor
        · rintro ⟨h1, h2⟩
          refine ⟨?_, ?_, h2⟩
          · intro j hj hmj
            rcases List.mem_cons.1 hj with rfl | hj
            · simpa using ht
            · have := h1 j hj hmj
              rw [get_set] at this
              split at this
              · cases this
              · exact this
          · intro j hj
            rw [List.mem_filter] at hj
            have := h1 j hj.1 hj.2
            rw [get_set] at this
            split at this
            · cases this
            · rename_i hne
              intro heq
              exact hne ⟨heq.symm, hlt⟩
        · rintro ⟨h1, h2, h3⟩
          refine ⟨?_, h3⟩
          intro j hj hmj
          rw [get_set, if_neg]
          · exact h1 j (by simp [hj]) hmj
          · rintro ⟨h4, -⟩
            exact h2 j (by rw [List.mem_filter]; exact ⟨hj, hmj⟩) h4.symm
    · have hm' : mask.get k = false := by simpa using hm
      simp only [hm', Bool.not_false, if_true]
      rw [ih _ hl, List.filter_cons_of_neg (by simp [hm'])]
      constructor
      · rintro ⟨h1, h2⟩
        refine ⟨?_, h2⟩
        intro j hj hmj
        rcases List.mem_cons.1 hj with rfl | hj
        · rw [hm'] at hmj; cases hmj
        · exact h1 j hj hmj
      · rintro ⟨h1, h2⟩
        exact ⟨fun j hj => h1 j (by simp [hj]), h2⟩

theorem scatterFrom_ok (mask taken : BitSet) (fuel d r : Nat)
    (hs : scatterFrom h n mask taken fuel d = .ok r) :
    isDistributable h n r mask taken = true ∧ d ≤ r ∧ r < d + fuel := by
  induction fuel generalizing d with
  | zero => simp [scatterFrom] at hs
  | succ fuel ih =>
    unfold scatterFrom at hs
    split at hs
    · cases hs
      rename_i hd
      exact ⟨hd, by omega, by omega⟩
    · have := ih (d + 1) hs
      exact ⟨this.1, by omega, by omega⟩

theorem scatterFrom_ne_thrown (mask taken : BitSet) (fuel d : Nat) :
    scatterFrom h n mask taken fuel d ≠ .thrown := by
  induction fuel generalizing d with
  | zero => simp [scatterFrom]
  | succ fuel ih =>
    unfold scatterFrom
    split
    · simp
    · exact ih (d + 1)

/-! ### placing the items of a bucket -/

/-- Placing one item. -/
def place (h : Nat → Nat → Nat) (n d : Nat) (st : State) (item : Nat) : State :=
  { taken := st.taken.set (h d item % n)
    table := { st.table with indexMap := st.table.indexMap.set (h d item % n) item } }

theorem placeItems_eq (d : Nat) (b : BitSet) (ks : List Nat) (hk : ∀ k ∈ ks, k < (ones b).length)
    (st : State) : placeItems h n d b ks st =
      .ok ((ks.filterMap fun k => (ones b)[k]?).foldl (place h n d) st) := by
  induction ks generalizing st with
  | nil => rfl
  | cons k ks ih =>
    have hlt := hk k (by simp)
    unfold placeItems
    rw [pick_eq, List.getElem?_eq_getElem hlt]
    simp only [orThrow, Result.bind]
    rw [ih (fun k hk' => hk k (by simp [hk']))]
    rw [List.filterMap_cons_some (List.getElem?_eq_getElem hlt)]
    rfl

theorem range_filterMap (l : List Nat) : (List.range l.length).filterMap (fun k => l[k]?) = l := by
  apply List.ext_getElem?
  intro i
  have : (List.range l.length).filterMap (fun k => l[k]?) = (List.range l.length).map (fun k => (l[k]?).getD 0) := by
    rw [← List.filterMap_eq_map]
    apply List.filterMap_congr
    intro k hk
    have hk' : k < l.length := by simpa using hk
    simp [List.getElem?_eq_getElem hk']
  rw [this]
  by_cases hi : i < l.length
  · simp [hi]
  · simp [hi]

/-- Effect of placing a list of items with pairwise different slots. -/
theorem foldl_place (hn : 0 < n) (d : Nat) (L : List Nat) (st : State)
    (hd : L.Pairwise (fun a b => h d a % n ≠ h d b % n))
    (ht : st.taken.length = n) (hi : st.table.indexMap.length = n) :
    let r := L.foldl (place h n d) st
    r.taken.length = n ∧ r.table.indexMap.length = n ∧ r.table.G = st.table.G ∧
    (∀ s, r.taken.get s = true ↔ (st.taken.get s = true ∨ ∃ k ∈ L, h d k % n = s)) ∧
    (∀ k ∈ L, r.table.indexMap[h d k % n]? = some k) ∧
    (∀ s, (∀ k ∈ L, h d k % n ≠ s) → r.table.indexMap[s]? = st.table.indexMap[s]?) := by
  induction L generalizing st with
  | nil => simp [ht, hi]
  | cons k L ih =>
    rw [List.pairwise_cons] at hd
    have hlt : h d k % n < n := Nat.mod_lt _ hn
    have := ih (place h n d st k) hd.2 (by simp [place, length_set, ht]) (by simp [place, hi])
    simp only [List.foldl_cons] at this ⊢
    obtain ⟨h1, h2, h3, h4, h5, h6⟩ := this
    refine ⟨h1, h2, h3, ?_, ?_, ?_⟩
    · intro s
      rw [h4 s]
      simp only [place, get_set, ht, List.mem_cons, exists_eq_or_imp]
      by_cases hs : s = h d k % n
      · subst hs; simp [hlt]
      · simp [hs, Ne.symm hs]
    · intro j hj
      rcases List.mem_cons.1 hj with rfl | hj
      · rw [h6 _ (fun k hk => (hd.1 k hk).symm)]
        simp [place, hi, hlt]
      · exact h5 j hj
    · intro s hs
      rw [h6 s (fun k hk => hs k (by simp [hk]))]
      simp only [place]
      rw [List.getElem?_set_ne (hs k (by simp))]

/-! ### the invariant -/

/-- The slot that lookup uses for item `k` when the seed array holds `d` for its bucket. -/
def slot (h : Nat → Nat → Nat) (n d k : Nat) : Nat :=
  if d ≥ 2^63 then 2^64 - 1 - d else h d k % n

/-- State after the buckets in `done` have been processed. -/
structure Inv (h : Nat → Nat → Nat) (n : Nat) (done : List Nat) (st : State) : Prop where
  lenT : st.taken.length = n
  lenI : st.table.indexMap.length = n
  lenG : st.table.G.length = n
  placed : ∀ k, k < n → h 0 k % n ∈ done → ∃ d, st.table.G[h 0 k % n]? = some d ∧
    slot h n d k < n ∧ st.taken.get (slot h n d k) = true ∧
    st.table.indexMap[slot h n d k]? = some k
  onto : ∀ s, st.taken.get s = true → ∃ k, k < n ∧ h 0 k % n ∈ done ∧
    st.table.indexMap[s]? = some k ∧ ∃ d, st.table.G[h 0 k % n]? = some d ∧ slot h n d k = s
  idx : ∀ (s v : Nat), st.table.indexMap[s]? = some v → v < n
  seeds : ∀ (b d : Nat), st.table.G[b]? = some d → d < 2^63 ∨ (d < 2^64 ∧ 2^64 - 1 - d < n)

theorem inv_init (hn : 0 < n) : Inv h n []
    { taken := BitSet.empty n
      table := { indexMap := List.replicate n 0, G := List.replicate n 0 } } where
  lenT := by simp [BitSet.empty]
  lenI := by simp
  lenG := by simp
  placed := by simp
  onto := by simp [get_empty]
  idx := by
    intro s v hv
    rw [List.getElem?_replicate] at hv
    split at hv
    · cases hv; exact hn
    · cases hv
  seeds := by
    intro b d hd
    rw [List.getElem?_replicate] at hd
    split at hd
    · cases hd; exact Or.inl (by decide)
    · cases hd

/-- Processing a new bucket with seed `d` preserves the invariant. -/
theorem inv_place (hn : 0 < n) {done : List Nat} {st : State} (inv : Inv h n done st)
    {i : Nat} (hi : i < n) (hnew : i ∉ done) (d : Nat) (hd : d < 2^63) (L : List Nat)
    (hL : ∀ k, k ∈ L ↔ (k < n ∧ h 0 k % n = i))
    (hfree : ∀ k ∈ L, st.taken.get (h d k % n) = false)
    (hdist : L.Pairwise (fun a b => h d a % n ≠ h d b % n)) :
    Inv h n (i :: done) (L.foldl (place h n d)
      { st with table := { st.table with G := st.table.G.set i d } }) := by
  have F := foldl_place hn d L { st with table := { st.table with G := st.table.G.set i d } } hdist
    inv.lenT inv.lenI
  simp only at F
  obtain ⟨f1, f2, f3, f4, f5, f6⟩ := F
  have hslot : ∀ k, slot h n d k = h d k % n := fun k => by
    unfold slot; rw [if_neg (by omega)]
  constructor
  · exact f1
  · exact f2
  · rw [f3]; simp [inv.lenG]
  · intro k hk hmem
    rw [f3]
    rcases List.mem_cons.1 hmem with heq | hmem
    · refine ⟨d, ?_, ?_, ?_, ?_⟩
      · rw [heq]; simp [inv.lenG, hi]
      · rw [hslot]; exact Nat.mod_lt _ hn
      · rw [hslot, f4]; exact Or.inr ⟨k, (hL k).2 ⟨hk, heq⟩, rfl⟩
      · rw [hslot]; exact f5 k ((hL k).2 ⟨hk, heq⟩)
    · obtain ⟨d', g1, g2, g3, g4⟩ := inv.placed k hk hmem
      have hne : h 0 k % n ≠ i := fun he => hnew (he ▸ hmem)
      refine ⟨d', ?_, g2, ?_, ?_⟩
      · rw [List.getElem?_set_ne (Ne.symm hne)]; exact g1
      · rw [f4]; exact Or.inl g3
      · rw [f6]
        · exact g4
        · intro j hj he
          have := hfree j hj
          rw [he, g3] at this; cases this
  · intro s hs
    rw [f4] at hs
    rw [f3]
    rcases hs with hs | ⟨k, hk, he⟩
    · obtain ⟨k, k1, k2, k3, d', k4, k5⟩ := inv.onto s hs
      have hne : h 0 k % n ≠ i := fun he => hnew (he ▸ k2)
      refine ⟨k, k1, by simp [k2], ?_, d', ?_, k5⟩
      · rw [f6]
        · exact k3
        · intro j hj he
          have := hfree j hj
          rw [he] at this
          rw [this] at hs; cases hs
      · rw [List.getElem?_set_ne (Ne.symm hne)]; exact k4
    · have hk' := (hL k).1 hk
      refine ⟨k, hk'.1, by simp [hk'.2], ?_, d, ?_, ?_⟩
      · rw [← he]; exact f5 k hk
      · rw [hk'.2]; simp [inv.lenG, hi]
      · rw [hslot]; exact he
  · intro s v hv
    by_cases hs : ∃ k ∈ L, h d k % n = s
    · obtain ⟨k, hk, he⟩ := hs
      rw [← he, f5 k hk] at hv
      cases hv
      exact ((hL v).1 hk).1
    · rw [f6 s (fun k hk he => hs ⟨k, hk, he⟩)] at hv
      exact inv.idx s v hv
  · intro b d' hb
    rw [f3] at hb
    rw [List.getElem?_set] at hb
    split at hb
    · split at hb
      · cases hb; exact Or.inl hd
      · cases hb
    · exact inv.seeds b d' hb

/-- Adding an empty bucket to the processed ones changes nothing. -/
theorem inv_skip {done : List Nat} {st : State} (inv : Inv h n done st) {i : Nat}
    (hempty : ∀ k, k < n → h 0 k % n ≠ i) : Inv h n (i :: done) st where
  lenT := inv.lenT
  lenI := inv.lenI
  lenG := inv.lenG
  placed := by
    intro k hk hmem
    rcases List.mem_cons.1 hmem with he | hmem
    · exact absurd he (hempty k hk)
    · exact inv.placed k hk hmem
  onto := by
    intro s hs
    obtain ⟨k, k1, k2, k3⟩ := inv.onto s hs
    exact ⟨k, k1, by simp [k2], k3⟩
  idx := inv.idx
  seeds := inv.seeds

/-- Placing the only item of a bucket directly preserves the invariant. -/
theorem inv_single (hn : 0 < n) (hn63 : n ≤ 2^63) {done : List Nat} {st : State} (inv : Inv h n done st)
    {i item index : Nat} (hnew : i ∉ done)
    (hL : ∀ k, (k < n ∧ h 0 k % n = i) ↔ k = item)
    (hindex : index < n) (hfree : st.taken.get index = false) :
    Inv h n (i :: done)
      { taken := st.taken.set index
        table := { G := st.table.G.set (h 0 item % n) (2^64 - 1 - index)
                   indexMap := st.table.indexMap.set index item } } := by
  have hitem := (hL item).2 rfl
  have hslot : ∀ k, slot h n (2^64 - 1 - index) k = index := fun k => by
    unfold slot; rw [if_pos (by omega)]; omega
  constructor
  · simp [length_set, inv.lenT]
  · simp [inv.lenI]
  · simp [inv.lenG]
  · intro k hk hmem
    rcases List.mem_cons.1 hmem with heq | hmem
    · have : k = item := (hL k).1 ⟨hk, heq⟩
      subst this
      refine ⟨2^64 - 1 - index, ?_, ?_, ?_, ?_⟩
      · simp only; rw [List.getElem?_set_self]; rw [inv.lenG]; exact Nat.mod_lt _ hn
      · rw [hslot]; exact hindex
      · rw [hslot, get_set, if_pos ⟨rfl, by rw [inv.lenT]; exact hindex⟩]
      · rw [hslot]; simp [inv.lenI, hindex]
    · obtain ⟨d', g1, g2, g3, g4⟩ := inv.placed k hk hmem
      have hne : h 0 k % n ≠ h 0 item % n := fun he => hnew (by rw [← hitem.2, ← he]; exact hmem)
      refine ⟨d', ?_, g2, ?_, ?_⟩
      · simp only; rw [List.getElem?_set_ne (Ne.symm hne)]; exact g1
      · rw [get_set]; split
        · rfl
        · exact g3
      · simp only
        rw [List.getElem?_set_ne]
        · exact g4
        · intro he; rw [← he, hfree] at g3; cases g3
  · intro s hs
    rw [get_set] at hs
    split at hs
    · rename_i he
      obtain ⟨rfl, _⟩ := he
      refine ⟨item, hitem.1, by simp [hitem.2], ?_, 2^64 - 1 - s, ?_, ?_⟩
      · simp [inv.lenI, hindex]
      · simp only; rw [List.getElem?_set_self]; rw [inv.lenG]; exact Nat.mod_lt _ hn
      · rw [hslot]
    · obtain ⟨k, k1, k2, k3, d', k4, k5⟩ := inv.onto s hs
      have hne : h 0 k % n ≠ h 0 item % n := fun he => hnew (by rw [← hitem.2, ← he]; exact k2)
      refine ⟨k, k1, by simp [k2], ?_, d', ?_, k5⟩
      · simp only
        rw [List.getElem?_set_ne]
        · exact k3
        · intro he; rw [← he, hfree] at hs; cases hs
      · simp only; rw [List.getElem?_set_ne (Ne.symm hne)]; exact k4
  · intro s v hv
    simp only at hv
    rw [List.getElem?_set] at hv
    split at hv
    · split at hv
      · cases hv; exact hitem.1
      · cases hv
    · exact inv.idx s v hv
  · intro b d' hb
    simp only at hb
    rw [List.getElem?_set] at hb
    split at hb
    · split at hb
      · cases hb; exact Or.inr ⟨by omega, by omega⟩
      · cases hb
    · exact inv.seeds b d' hb

/-- As long as an item is not placed there is a free slot. -/
theorem exists_free {done : List Nat} {st : State} (inv : Inv h n done st) {item : Nat}
    (hitem : item < n) (hnew : h 0 item % n ∉ done) : ∃ s, s < n ∧ st.taken.get s = false := by
  refine Decidable.byContradiction fun hcon => ?_
  have hall : ∀ s, s < n → st.taken.get s = true := by
    intro s hs
    refine Decidable.byContradiction fun h' => hcon ⟨s, hs, by simpa using h'⟩
  -- every slot holds a placed item, distinct slots hold distinct items
  have hch : ∀ s : Fin n, ∃ k : Fin n, st.table.indexMap[s.1]? = some k.1 ∧
      ∃ d, st.table.G[h 0 k.1 % n]? = some d ∧ slot h n d k.1 = s.1 := by
    intro s
    obtain ⟨k, k1, _, k3, k4⟩ := inv.onto s.1 (hall s.1 s.2)
    exact ⟨⟨k, k1⟩, k3, k4⟩
  choose f hf using hch
  have hinj : Function.Injective f := by
    intro a b hab
    obtain ⟨d, hd, hs⟩ := (hf a).2
    obtain ⟨d', hd', hs'⟩ := (hf b).2
    rw [hab] at hd hs
    rw [hd] at hd'
    cases hd'
    exact Fin.ext (hs ▸ hs')
  have hsurj : Function.Surjective f := Finite.surjective_of_injective hinj
  obtain ⟨s, hs⟩ := hsurj ⟨item, hitem⟩
  obtain ⟨k, k1, k2, k3, _⟩ := inv.onto s.1 (hall s.1 s.2)
  have := (hf s).1
  rw [k3, hs] at this
  cases this
  exact hnew k2

/-! ### the loops -/

theorem Result.bind_ok {α β : Type} {r : Result α} {f : α → Result β} {b : β}
    (hb : r.bind f = .ok b) : ∃ a, r = .ok a ∧ f a = .ok b := by
  cases r <;> simp [Result.bind] at hb
  exact ⟨_, rfl, hb⟩

theorem Result.bind_thrown {α β : Type} {r : Result α} {f : α → Result β}
    (hb : r.bind f = .thrown) : r = .thrown ∨ ∃ a, r = .ok a ∧ f a = .thrown := by
  cases r with
  | ok a => exact Or.inr ⟨a, rfl, hb⟩
  | thrown => exact Or.inl rfl
  | outOfFuel => simp [Result.bind] at hb

/-- The loop body in closed form, for a bucket with the requested number of items. -/
theorem processBucket_eq (hbs : BucketsOk h n bs) {fuel count i : Nat} (hi : i < n)
    (hc : (bucket bs i).count = count) (h1 : 1 ≤ count) (st : State) :
    processBucket h n fuel bs count i st =
      (scatterFrom h n (bucket bs i) st.taken fuel 1).bind fun d =>
        .ok ((ones (bucket bs i)).foldl (place h n d)
          { st with table := { st.table with G := st.table.G.set i d } }) := by
  unfold processBucket
  simp only [hc, ne_eq, not_true, if_false]
  congr 1
  funext d
  have hne : ones (bucket bs i) ≠ [] := by
    intro he
    rw [count_eq, he] at hc
    simp at hc; omega
  obtain ⟨first, tl, hf⟩ := List.exists_cons_of_ne_nil hne
  have hmem : first ∈ ones (bucket bs i) := by rw [hf]; simp
  rw [mem_ones, (hbs i hi).2] at hmem
  rw [firstSet_eq, hf]
  simp only [List.head?_cons, orThrow, Result.bind]
  rw [hmem.2, placeItems_eq]
  · rw [← hc, count_eq, range_filterMap, hf]
  · intro k hk
    rw [← count_eq, hc]; simpa using hk

theorem mem_bucket_ones (hbs : BucketsOk h n bs) {i : Nat} (hi : i < n) (k : Nat) :
    k ∈ ones (bucket bs i) ↔ (k < n ∧ h 0 k % n = i) := by
  rw [mem_ones, (hbs i hi).2]

theorem ones_eq_filter (b : BitSet) : ones b = (List.range b.length).filter b.get := by
  have h1 : (ones b).Pairwise (· < ·) := ones_sorted b
  have h2 : ((List.range b.length).filter b.get).Pairwise (· < ·) :=
    List.Pairwise.filter _ List.pairwise_lt_range
  apply List.Perm.eq_of_pairwise (le := (· < ·)) _ h1 h2
  · rw [List.perm_ext_iff_of_nodup]
    · intro k
      rw [mem_ones, List.mem_filter, List.mem_range]
      constructor
      · intro hk; exact ⟨get_lt hk, hk⟩
      · exact fun hk => hk.2
    · exact h1.imp (fun h => Nat.ne_of_lt h)
    · exact h2.imp (fun h => Nat.ne_of_lt h)
  · intro a b _ _ hab hba; omega

theorem inv_processBucket (hn : 0 < n) (hbs : BucketsOk h n bs) {fuel count i : Nat} (hfuel : fuel < 2^63)
    (hi : i < n) (h1 : 1 ≤ count) {done : List Nat} {st st' : State} (inv : Inv h n done st)
    (hc : (bucket bs i).count = count) (hnew : i ∉ done)
    (hr : processBucket h n fuel bs count i st = .ok st') : Inv h n (i :: done) st' := by
  rw [processBucket_eq hbs hi hc h1] at hr
  obtain ⟨d, hd, hr⟩ := Result.bind_ok hr
  cases hr
  have hs := scatterFrom_ok _ _ _ _ _ hd
  have hdist := (distributable_spec hn d (bucket bs i) (List.range n) st.taken inv.lenT).1 hs.1
  have hfilter : (List.range n).filter (bucket bs i).get = ones (bucket bs i) := by
    rw [ones_eq_filter, (hbs i hi).1]
  rw [hfilter] at hdist
  apply inv_place hn inv hi hnew d (by omega) _ (mem_bucket_ones hbs hi) _ hdist.2
  intro k hk
  have := (mem_bucket_ones hbs hi k).1 hk
  exact hdist.1 k (by simpa using this.1) (by rwa [mem_ones] at hk)

/-- Inner loop. -/
theorem inv_processBuckets (hn : 0 < n) (hbs : BucketsOk h n bs) {fuel count : Nat} (hfuel : fuel < 2^63)
    (h1 : 1 ≤ count) (is : List Nat) (his : ∀ i ∈ is, i < n) (hnd : is.Nodup)
    {done : List Nat} {st st' : State} (inv : Inv h n done st)
    (hnew : ∀ i ∈ is, (bucket bs i).count = count → i ∉ done)
    (hr : processBuckets h n fuel bs count is st = .ok st') :
    ∃ done', Inv h n done' st' ∧ ∀ b, b ∈ done' ↔ (b ∈ done ∨ (b ∈ is ∧ (bucket bs b).count = count)) := by
  induction is generalizing done st with
  | nil =>
    simp only [processBuckets] at hr
    cases hr
    exact ⟨done, inv, by simp⟩
  | cons i is ih =>
    rw [List.nodup_cons] at hnd
    unfold processBuckets at hr
    obtain ⟨st1, hr1, hr2⟩ := Result.bind_ok hr
    by_cases hc : (bucket bs i).count = count
    · have inv1 := inv_processBucket hn hbs hfuel (his i (by simp)) h1 inv hc (hnew i (by simp) hc) hr1
      obtain ⟨done', inv', hd'⟩ := ih (fun j hj => his j (by simp [hj])) hnd.2 inv1
        (by
          intro j hj hcj hmem
          rcases List.mem_cons.1 hmem with rfl | hmem
          · exact hnd.1 hj
          · exact hnew j (by simp [hj]) hcj hmem) hr2
      refine ⟨done', inv', fun b => ?_⟩
      rw [hd']
      simp only [List.mem_cons]
      constructor
      · rintro ((rfl | hb) | ⟨hb, hbc⟩)
        · exact Or.inr ⟨Or.inl rfl, hc⟩
        · exact Or.inl hb
        · exact Or.inr ⟨Or.inr hb, hbc⟩
      · rintro (hb | ⟨rfl | hb, hbc⟩)
        · exact Or.inl (Or.inr hb)
        · exact Or.inl (Or.inl rfl)
        · exact Or.inr ⟨hb, hbc⟩
    · have : st1 = st := by
        unfold processBucket at hr1
        simp only [ne_eq, hc, not_false_eq_true, if_true] at hr1
        cases hr1; rfl
      subst this
      obtain ⟨done', inv', hd'⟩ := ih (fun j hj => his j (by simp [hj])) hnd.2 inv
        (fun j hj => hnew j (by simp [hj])) hr2
      refine ⟨done', inv', fun b => ?_⟩
      rw [hd']
      simp only [List.mem_cons]
      constructor
      · rintro (hb | ⟨hb, hbc⟩)
        · exact Or.inl hb
        · exact Or.inr ⟨Or.inr hb, hbc⟩
      · rintro (hb | ⟨rfl | hb, hbc⟩)
        · exact Or.inl hb
        · exact absurd hbc hc
        · exact Or.inr ⟨hb, hbc⟩

/-- Outer loop: afterwards exactly the buckets with two or more items have been processed. -/
theorem inv_processCounts (hn : 0 < n) (hbs : BucketsOk h n bs) {fuel : Nat} (hfuel : fuel < 2^63)
    (count : Nat) {done : List Nat} {st st' : State} (inv : Inv h n done st)
    (hdone : ∀ b, b ∈ done ↔ (b < n ∧ count < (bucket bs b).count ∧ 2 ≤ (bucket bs b).count))
    (hr : processCounts h n fuel bs count st = .ok st') :
    ∃ done', Inv h n done' st' ∧ ∀ b, b ∈ done' ↔ (b < n ∧ 2 ≤ (bucket bs b).count) := by
  induction count using Nat.strongRecOn generalizing done st with
  | ind count ih =>
    match count, ih, hdone, hr with
    | 0, _, hdone, hr =>
      simp only [processCounts] at hr; cases hr
      exact ⟨done, inv, fun b => by rw [hdone]; constructor <;> intro hb <;> omega⟩
    | 1, _, hdone, hr =>
      simp only [processCounts] at hr; cases hr
      exact ⟨done, inv, fun b => by rw [hdone]; constructor <;> intro hb <;> omega⟩
    | c+2, ih, hdone, hr =>
      unfold processCounts at hr
      obtain ⟨st1, hr1, hr2⟩ := Result.bind_ok hr
      obtain ⟨done1, inv1, hd1⟩ := inv_processBuckets hn hbs hfuel (by omega) (List.range n)
        (by simp) List.nodup_range inv (by
          intro i hi hc hmem
          rw [hdone] at hmem; omega) hr1
      refine ih (c + 1) (by omega) inv1 ?_ hr2
      intro b
      rw [hd1, hdone, List.mem_range]
      constructor
      · rintro (hb | hb) <;> omega
      · intro hb; omega

/-- Singleton loop. -/
theorem inv_processSingles (hn : 0 < n) (hn63 : n ≤ 2^63) (hbs : BucketsOk h n bs) (is : List Nat)
    (his : ∀ i ∈ is, i < n) (hnd : is.Nodup) {done : List Nat} {st : State} (inv : Inv h n done st)
    (hnew : ∀ i ∈ is, (bucket bs i).count = 1 → i ∉ done) :
    ∃ st', processSingles h n bs is st = .ok st' ∧
    ∃ done', Inv h n done' st' ∧ ∀ b, b ∈ done' ↔ (b ∈ done ∨ (b ∈ is ∧ (bucket bs b).count = 1)) := by
  induction is generalizing done st with
  | nil => exact ⟨st, rfl, done, inv, by simp⟩
  | cons i is ih =>
    rw [List.nodup_cons] at hnd
    have hi := his i (by simp)
    unfold processSingles
    by_cases hc : (bucket bs i).count = 1
    · have hlen : (ones (bucket bs i)).length = 1 := by rw [← count_eq]; exact hc
      obtain ⟨item, hitem⟩ := List.length_eq_one_iff.1 hlen
      have hL : ∀ k, (k < n ∧ h 0 k % n = i) ↔ k = item := by
        intro k; rw [← mem_bucket_ones hbs hi, hitem]; simp
      have hit := (hL item).2 rfl
      simp only [hc, if_true]
      rw [firstSet_eq, hitem]
      simp only [List.head?_cons, orThrow, Result.bind]
      have hfree := exists_free inv hit.1 (by rw [hit.2]; exact hnew i (by simp) hc)
      cases hfu : st.taken.firstUnset with
      | none =>
        exfalso
        obtain ⟨s, hs, hsf⟩ := hfree
        have := firstUnset_none hfu s (by rw [inv.lenT]; exact hs)
        rw [hsf] at this; cases this
      | some index =>
        simp only
        have hidx := firstUnset_some hfu
        rw [inv.lenT] at hidx
        have inv1 := inv_single hn hn63 inv (hnew i (by simp) hc) hL hidx.1 hidx.2
        obtain ⟨st', hr, done', inv', hd'⟩ := ih (fun j hj => his j (by simp [hj])) hnd.2 inv1
          (by
            intro j hj hcj hmem
            rcases List.mem_cons.1 hmem with rfl | hmem
            · exact hnd.1 hj
            · exact hnew j (by simp [hj]) hcj hmem)
        refine ⟨st', hr, done', inv', fun b => ?_⟩
        rw [hd']
        simp only [List.mem_cons]
        constructor
        · rintro ((rfl | hb) | ⟨hb, hbc⟩)
          · exact Or.inr ⟨Or.inl rfl, hc⟩
          · exact Or.inl hb
          · exact Or.inr ⟨Or.inr hb, hbc⟩
        · rintro (hb | ⟨rfl | hb, hbc⟩)
          · exact Or.inl (Or.inr hb)
          · exact Or.inl (Or.inl rfl)
          · exact Or.inr ⟨hb, hbc⟩
    · simp only [hc, if_false]
      obtain ⟨st', hr, done', inv', hd'⟩ := ih (fun j hj => his j (by simp [hj])) hnd.2 inv
        (fun j hj => hnew j (by simp [hj]))
      refine ⟨st', hr, done', inv', fun b => ?_⟩
      rw [hd']
      simp only [List.mem_cons]
      constructor
      · rintro (hb | ⟨hb, hbc⟩)
        · exact Or.inl hb
        · exact Or.inr ⟨Or.inr hb, hbc⟩
      · rintro (hb | ⟨rfl | hb, hbc⟩)
        · exact Or.inl hb
        · exact absurd hbc hc
        · exact Or.inr ⟨hb, hbc⟩

theorem bucket_count_le (hbs : BucketsOk h n bs) {i : Nat} (hi : i < n) : (bucket bs i).count ≤ n := by
  rw [count_eq]
  have hnd : (ones (bucket bs i)).Nodup := (ones_sorted _).imp (fun h => Nat.ne_of_lt h)
  have hsub : ones (bucket bs i) ⊆ List.range n := by
    intro k hk
    rw [mem_bucket_ones hbs hi] at hk
    simpa using hk.1
  have := (List.subperm_of_subset hnd hsub).length_le
  simpa using this

/-- What a finished table guarantees. -/
structure TableOk (h : Nat → Nat → Nat) (n : Nat) (t : Table) : Prop where
  lenI : t.indexMap.length = n
  lenG : t.G.length = n
  lookup : ∀ k, k < n → ∃ d, t.G[h 0 k % n]? = some d ∧ t.indexMap[slot h n d k]? = some k
  idx : ∀ (s v : Nat), t.indexMap[s]? = some v → v < n
  seeds : ∀ (b d : Nat), t.G[b]? = some d → d < 2^63 ∨ (d < 2^64 ∧ 2^64 - 1 - d < n)

theorem buildWith_ok (hn : 0 < n) (hn63 : n ≤ 2^63) {fuel : Nat} (hfuel : fuel < 2^63) {t : Table}
    (hr : buildWith h n fuel = .ok t) : TableOk h n t := by
  unfold buildWith at hr
  simp only at hr
  obtain ⟨st, hr1, hr2⟩ := Result.bind_ok hr
  cases hr2
  obtain ⟨st1, hr3, hr4⟩ := Result.bind_ok hr1
  have hbs := buckets_ok h n
  obtain ⟨done, inv, hd⟩ := inv_processCounts hn hbs hfuel n (inv_init hn) (by
    intro b
    simp only [List.not_mem_nil, false_iff]
    rintro ⟨h1, h2, _⟩
    have := bucket_count_le hbs h1
    omega) hr3
  obtain ⟨st', hr5, done', inv', hd'⟩ := inv_processSingles hn hn63 hbs (List.range n) (by simp)
    List.nodup_range inv (by
      intro i hi hc hmem
      rw [hd] at hmem; omega)
  rw [hr4] at hr5
  cases hr5
  refine ⟨inv'.lenI, inv'.lenG, ?_, inv'.idx, inv'.seeds⟩
  intro k hk
  have hb : h 0 k % n < n := Nat.mod_lt _ hn
  have hmem : h 0 k % n ∈ done' := by
    rw [hd', hd]
    have : k ∈ ones (bucket (buckets h n) (h 0 k % n)) := (mem_bucket_ones hbs hb k).2 ⟨hk, rfl⟩
    have hpos : 0 < (ones (bucket (buckets h n) (h 0 k % n))).length := List.length_pos_of_mem this
    rw [← count_eq] at hpos
    by_cases h2 : 2 ≤ (bucket (buckets h n) (h 0 k % n)).count
    · exact Or.inl ⟨hb, h2⟩
    · exact Or.inr ⟨by simpa using hb, by omega⟩
  obtain ⟨d, h1, _, _, h4⟩ := inv'.placed k hk hmem
  exact ⟨d, h1, h4⟩

/-! ### the construction never throws -/

theorem processBuckets_ne_thrown (hbs : BucketsOk h n bs) {fuel count : Nat} (h1 : 1 ≤ count)
    (is : List Nat) (his : ∀ i ∈ is, i < n) (st : State) :
    processBuckets h n fuel bs count is st ≠ .thrown := by
  induction is generalizing st with
  | nil => simp [processBuckets]
  | cons i is ih =>
    intro hr
    unfold processBuckets at hr
    rcases Result.bind_thrown hr with hr | ⟨st1, _, hr2⟩
    · by_cases hc : (bucket bs i).count = count
      · rw [processBucket_eq hbs (his i (by simp)) hc h1] at hr
        rcases Result.bind_thrown hr with hr | ⟨d, _, hr⟩
        · exact scatterFrom_ne_thrown _ _ _ _ hr
        · cases hr
      · unfold processBucket at hr
        simp only [ne_eq, hc, not_false_eq_true, if_true] at hr
        cases hr
    · exact ih (fun j hj => his j (by simp [hj])) st1 hr2

theorem processCounts_ne_thrown (hbs : BucketsOk h n bs) {fuel : Nat} (count : Nat) (st : State) :
    processCounts h n fuel bs count st ≠ .thrown := by
  induction count using Nat.strongRecOn generalizing st with
  | ind count ih =>
    match count, ih with
    | 0, _ => simp [processCounts]
    | 1, _ => simp [processCounts]
    | c+2, ih =>
      intro hr
      unfold processCounts at hr
      rcases Result.bind_thrown hr with hr | ⟨st1, _, hr2⟩
      · exact processBuckets_ne_thrown hbs (by omega) _ (by simp) _ hr
      · exact ih (c + 1) (by omega) st1 hr2

theorem buildWith_ne_thrown (hn : 0 < n) (hn63 : n ≤ 2^63) {fuel : Nat} (hfuel : fuel < 2^63) :
    buildWith h n fuel ≠ .thrown := by
  intro hr
  unfold buildWith at hr
  simp only at hr
  have hbs := buckets_ok h n
  rcases Result.bind_thrown hr with hr | ⟨_, _, hr⟩
  · rcases Result.bind_thrown hr with hr | ⟨st1, hr3, hr⟩
    · exact processCounts_ne_thrown hbs _ _ hr
    · obtain ⟨done, inv, hd⟩ := inv_processCounts hn hbs hfuel n (inv_init hn) (by
        intro b
        simp only [List.not_mem_nil, false_iff]
        rintro ⟨h1, h2, _⟩
        have := bucket_count_le hbs h1
        omega) hr3
      obtain ⟨st', hr5, _⟩ := inv_processSingles hn hn63 hbs (List.range n) (by simp)
        List.nodup_range inv (by
          intro i hi hc hmem
          rw [hd] at hmem; omega)
      rw [hr] at hr5; cases hr5
  · cases hr

end Verif.PerfectHash
