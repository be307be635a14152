import Verif.DateTime

/-!
# Formatting time stamps in several threads

`to_iso_date` and `to_iso_datetime` (datetime.hpp:247-266, 271-296) call `gmtime`, which returns a pointer to an object that all
threads share (C11 7.27.3: one of two static objects; POSIX: need not be thread-safe), and read its fields one after the other. All
other variables of these functions, and of the rest of the library, belong to one thread or are never changed. A data race is undefined
behaviour in C++; the model is as favourable as can be: each write of the shared object and each read of a field happens at once, in one
order that all threads see.
-/

namespace Verif.Threads
open Verif.DateTime

/-! ## Model -/

/-- `to_iso_date` or `to_iso_datetime`. -/
inductive Form
  | date
  | moment
deriving DecidableEq, Repr

/-- Number of fields that are read (datetime.hpp:254-256, 278-283). -/
def Form.count : Form → Nat
  | .date => 3
  | .moment => 6

/-- A call, with its argument `value` (datetime.hpp:247, 271). -/
structure Request where
  form : Form
  ticks : Int
deriving DecidableEq, Repr

/-- The fields of `std::tm` in the order in which they are read (datetime.hpp:254-256, 278-283). -/
def fieldOf (tm : Tm) : Nat → Int
  | 0 => tm.year
  | 1 => tm.month
  | 2 => tm.day
  | 3 => tm.hour
  | 4 => tm.minute
  | _ => tm.second

/-- The text of the local variables `year`, `month`, … (datetime.hpp:259-265, 286-295). -/
def render (junk : Nat → Str) : Form → List Int → Str
  | .date, [y, mo, d] => field4 junk y ++ [45] ++ field2 junk mo ++ [45] ++ field2 junk d
  | .moment, [y, mo, d, h, mi, s] =>
      field4 junk y ++ [45] ++ field2 junk mo ++ [45] ++ field2 junk d ++ [84] ++ field2 junk h ++ [58] ++ field2 junk mi ++ [58] ++ field2 junk s ++ [90]
  | _, _ => []

/-- A thread: the calls that it has still to make, the one it is in with the fields read so far, and the texts it has obtained. -/
structure Local where
  todo : List Request
  now : Option (Request × List Int)
  out : List Str

/-- The object that `gmtime` returns, and the threads. -/
structure State where
  shared : Tm
  threads : Nat → Local

/-- One thread moves. -/
def State.update (s : State) (i : Nat) (l : Local) : State := { s with threads := fun k => if k = i then l else s.threads k }

/-- The calendar time of the argument (datetime.hpp:250-253, 274-277). -/
def Request.tm (clk : Nat) (r : Request) : Tm := gmtime (toTimeT clk r.ticks)

/-- The next step of thread `i`: it calls `gmtime`, which overwrites the shared object (datetime.hpp:253, 277), reads the next field
(254-256, 278-283), or formats what it has read and returns (258-265, 285-295). -/
def step (clk : Nat) (junk : Nat → Str) (s : State) (i : Nat) : State :=
  let l := s.threads i
  match l.now with
  | none =>
      match l.todo with
      | [] => s
      | r :: rest => { s.update i { l with todo := rest, now := some (r, []) } with shared := r.tm clk }
  | some (r, got) =>
      if got.length < r.form.count then s.update i { l with now := some (r, got ++ [fieldOf s.shared got.length]) }
      else s.update i { l with now := none, out := l.out ++ [render junk r.form got] }

/-- The steps of a schedule, which says whose turn it is. -/
def run (clk : Nat) (junk : Nat → Str) (s : State) (schedule : List Nat) : State := schedule.foldl (step clk junk) s

/-- Threads that have not begun; the shared object contains anything. -/
def start (shared : Tm) (todo : Nat → List Request) : State := ⟨shared, fun i => ⟨todo i, none, []⟩⟩

/-! ## Specification -/

/-- The text that a call is to return. -/
def Request.text (clk : Nat) (junk : Nat → Str) (r : Request) : Str :=
  match r.form with
  | .date => toIsoDate junk clk r.ticks
  | .moment => toIsoDatetime junk clk r.ticks

/-- The thread has called `gmtime` and has not yet read all fields. -/
def Reading (l : Local) : Prop := ∃ r got, l.now = some (r, got) ∧ got.length < r.form.count

/-- No thread calls `gmtime` while another one is reading. -/
def Exclusive (clk : Nat) (junk : Nat → Str) (s : State) (schedule : List Nat) : Prop :=
  ∀ before i after, schedule = before ++ i :: after → ((run clk junk s before).threads i).now = none → ((run clk junk s before).threads i).todo ≠ [] →
    ∀ k, ¬ Reading ((run clk junk s before).threads k)

/-- A text whose fields are those of several moments: field `k` of that of `g k`. -/
def mixed (clk : Nat) (junk : Nat → Str) (form : Form) (g : Nat → Request) : Str :=
  render junk form ((List.range form.count).map fun k => fieldOf ((g k).tm clk) k)

/-! ## Lemmas -/

theorem render_same (clk : Nat) (junk : Nat → Str) (r : Request) : render junk r.form ((List.range r.form.count).map (fieldOf (r.tm clk))) = r.text clk junk := by
  obtain ⟨form, ticks⟩ := r
  cases form <;> rfl

theorem mixed_same (clk : Nat) (junk : Nat → Str) (r : Request) : mixed clk junk r.form (fun _ => r) = r.text clk junk := render_same clk junk r

theorem range_succ_map (f : Nat → Int) (n : Nat) : (List.range n).map f ++ [f n] = (List.range (n + 1)).map f := by
  rw [List.range_succ, List.map_append]
  rfl

theorem run_append (clk : Nat) (junk : Nat → Str) (s : State) (a b : List Nat) : run clk junk s (a ++ b) = run clk junk (run clk junk s a) b := List.foldl_append

theorem run_cons (clk : Nat) (junk : Nat → Str) (s : State) (i : Nat) (b : List Nat) : run clk junk s (i :: b) = run clk junk (step clk junk s i) b := rfl

theorem run_snoc (clk : Nat) (junk : Nat → Str) (s : State) (a : List Nat) (i : Nat) : run clk junk s (a ++ [i]) = step clk junk (run clk junk s a) i := by
  rw [run_append]
  rfl

@[simp] theorem update_same (s : State) (i : Nat) (l : Local) : (s.update i l).threads i = l := by simp [State.update]

theorem update_other (s : State) {i k : Nat} (l : Local) (h : k ≠ i) : (s.update i l).threads k = s.threads k := by simp [State.update, h]

@[simp] theorem update_shared (s : State) (i : Nat) (l : Local) : (s.update i l).shared = s.shared := rfl

/-- What a step can be. -/
theorem step_cases (clk : Nat) (junk : Nat → Str) (s : State) (i : Nat) :
    ((s.threads i).now = none ∧ (s.threads i).todo = [] ∧ step clk junk s i = s) ∨
    (∃ r rest, (s.threads i).now = none ∧ (s.threads i).todo = r :: rest ∧
      step clk junk s i = ⟨r.tm clk, (s.update i ⟨rest, some (r, []), (s.threads i).out⟩).threads⟩) ∨
    (∃ r got, (s.threads i).now = some (r, got) ∧ got.length < r.form.count ∧
      step clk junk s i = s.update i ⟨(s.threads i).todo, some (r, got ++ [fieldOf s.shared got.length]), (s.threads i).out⟩) ∨
    (∃ r got, (s.threads i).now = some (r, got) ∧ ¬ got.length < r.form.count ∧
      step clk junk s i = s.update i ⟨(s.threads i).todo, none, (s.threads i).out ++ [render junk r.form got]⟩) := by
  simp only [step]
  cases hn : (s.threads i).now with
  | none =>
    cases ht : (s.threads i).todo with
    | nil => exact .inl ⟨rfl, rfl, rfl⟩
    | cons r rest => exact .inr (.inl ⟨r, rest, rfl, rfl, rfl⟩)
  | some p =>
    obtain ⟨r, got⟩ := p
    by_cases h : got.length < r.form.count
    · exact .inr (.inr (.inl ⟨r, got, rfl, h, by simp only [h, if_true]⟩))
    · exact .inr (.inr (.inr ⟨r, got, rfl, h, by simp only [h, if_false]⟩))

/-! ### Mixtures -/

/-- What holds of a thread at any time. -/
structure Mixes (clk : Nat) (junk : Nat → Str) (all : Request → Prop) (todo : List Request) (shared : Tm) (l : Local) : Prop where
  parts : ∃ past, todo = past ++ (l.now.map (·.1)).toList ++ l.todo ∧ l.out.length = past.length ∧
    ∀ (n : Nat) (r : Request) (s : Str), past[n]? = some r → l.out[n]? = some s → ∃ g, (∀ k, all (g k)) ∧ s = mixed clk junk r.form g
  got : ∀ r got, l.now = some (r, got) → got.length ≤ r.form.count ∧ (∃ r', all r' ∧ shared = r'.tm clk) ∧
    ∃ g : Nat → Request, (∀ k, all (g k)) ∧ got = (List.range got.length).map fun k => fieldOf ((g k).tm clk) k

theorem Mixes.shared {clk : Nat} {junk : Nat → Str} {all : Request → Prop} {todo : List Request} {shared : Tm} {l : Local}
    (h : Mixes clk junk all todo shared l) (r' : Request) (hr : all r') : Mixes clk junk all todo (r'.tm clk) l :=
  ⟨h.parts, fun r got hn => ⟨(h.got r got hn).1, ⟨r', hr, rfl⟩, (h.got r got hn).2.2⟩⟩

theorem mixes_step (clk : Nat) (junk : Nat → Str) (todo : Nat → List Request) (s : State)
    (h : ∀ k, Mixes clk junk (fun r => ∃ i, r ∈ todo i) (todo k) s.shared (s.threads k)) (i k : Nat) :
    Mixes clk junk (fun r => ∃ i, r ∈ todo i) (todo k) (step clk junk s i).shared ((step clk junk s i).threads k) := by
  rcases step_cases clk junk s i with ⟨-, -, e⟩ | ⟨r, rest, hn, ht, e⟩ | ⟨r, got, hn, hl, e⟩ | ⟨r, got, hn, hl, e⟩
  · rw [e]
    exact h k
  · have hr : ∃ i, r ∈ todo i := by
      obtain ⟨past, hp, -⟩ := (h i).parts
      exact ⟨i, by rw [hp, ht]; simp⟩
    rw [e]
    by_cases hk : k = i
    · subst hk
      simp only [update_same]
      obtain ⟨past, hp, ho, hx⟩ := (h k).parts
      refine ⟨⟨past, ?_, ho, hx⟩, fun r' got' hn' => ?_⟩
      · rw [hp, hn, ht]
        simp
      · cases hn'
        exact ⟨Nat.zero_le _, ⟨r, hr, rfl⟩, fun _ => r, fun _ => hr, rfl⟩
    · simp only [update_other _ _ hk]
      exact (h k).shared r hr
  · rw [e]
    by_cases hk : k = i
    · subst hk
      simp only [update_same, update_shared]
      obtain ⟨past, hp, ho, hx⟩ := (h k).parts
      obtain ⟨h1, ⟨r', hr', hs⟩, g, hg, hgot⟩ := (h k).got r got hn
      refine ⟨⟨past, ?_, ho, hx⟩, fun r2 got2 hn2 => ?_⟩
      · rw [hp, hn]
        simp
      · simp only [Option.some.injEq, Prod.mk.injEq] at hn2
        obtain ⟨rfl, rfl⟩ := hn2
        refine ⟨by simp; omega, ⟨r', hr', hs⟩, fun k => if k < got.length then g k else r', fun k => ?_, ?_⟩
        · by_cases hk : k < got.length
          · simp only [hk, if_true]; exact hg k
          · simp only [hk, if_false]; exact hr'
        · rw [List.length_append, List.length_singleton, ← range_succ_map, hs]
          simp only [Nat.lt_irrefl, if_false]
          congr 1
          conv => lhs; rw [hgot]
          refine List.map_congr_left fun k hk => ?_
          simp only [List.mem_range] at hk
          simp only [hk, if_true]
    · simp only [update_other _ _ hk, update_shared]
      exact h k
  · rw [e]
    by_cases hk : k = i
    · subst hk
      simp only [update_same, update_shared]
      obtain ⟨past, hp, ho, hx⟩ := (h k).parts
      obtain ⟨h1, ⟨r', hr', hs⟩, g, hg, hgot⟩ := (h k).got r got hn
      refine ⟨⟨past ++ [r], ?_, by simp [ho], fun n r2 s2 g1 g2 => ?_⟩, fun r2 got2 hn2 => by cases hn2⟩
      · rw [hp, hn]
        simp
      · rcases Nat.lt_trichotomy n past.length with hlt | heq | hgt
        · rw [List.getElem?_append_left hlt] at g1
          rw [List.getElem?_append_left (by omega)] at g2
          exact hx n r2 s2 g1 g2
        · subst heq
          rw [List.getElem?_append_right (Nat.le_refl _), Nat.sub_self] at g1
          rw [List.getElem?_append_right (by omega), ho, Nat.sub_self] at g2
          cases g1
          cases g2
          have : got.length = r.form.count := by omega
          rw [this] at hgot
          exact ⟨g, hg, by rw [hgot]; rfl⟩
        · rw [List.getElem?_eq_none (by simp; omega)] at g1
          cases g1
    · simp only [update_other _ _ hk, update_shared]
      exact h k

theorem mixes_run (clk : Nat) (junk : Nat → Str) (todo : Nat → List Request) (schedule : List Nat) : ∀ (s : State),
    (∀ k, Mixes clk junk (fun r => ∃ i, r ∈ todo i) (todo k) s.shared (s.threads k)) →
    ∀ k, Mixes clk junk (fun r => ∃ i, r ∈ todo i) (todo k) (run clk junk s schedule).shared ((run clk junk s schedule).threads k) := by
  induction schedule with
  | nil => exact fun s h => h
  | cons i schedule ih => exact fun s h => ih _ (mixes_step clk junk todo s h i)

theorem mixes_start (clk : Nat) (junk : Nat → Str) (shared : Tm) (todo : Nat → List Request) (all : Request → Prop) (k : Nat) :
    Mixes clk junk all (todo k) (start shared todo).shared ((start shared todo).threads k) :=
  ⟨⟨[], rfl, rfl, fun n r s h => by cases h⟩, fun r got h => by cases h⟩

/-! ### No overlap -/

/-- What holds of a thread if nobody disturbs another one. -/
structure Undisturbed (clk : Nat) (junk : Nat → Str) (todo : List Request) (shared : Tm) (l : Local) : Prop where
  parts : ∃ past, todo = past ++ (l.now.map (·.1)).toList ++ l.todo ∧ l.out = past.map (·.text clk junk)
  got : ∀ r got, l.now = some (r, got) → got.length ≤ r.form.count ∧ (got.length < r.form.count → shared = r.tm clk) ∧
    got = (List.range got.length).map (fieldOf (r.tm clk))

theorem undisturbed_step (clk : Nat) (junk : Nat → Str) (todo : Nat → List Request) (s : State)
    (h : ∀ k, Undisturbed clk junk (todo k) s.shared (s.threads k)) (i : Nat)
    (hx : (s.threads i).now = none → (s.threads i).todo ≠ [] → ∀ k, ¬ Reading (s.threads k)) (k : Nat) :
    Undisturbed clk junk (todo k) (step clk junk s i).shared ((step clk junk s i).threads k) := by
  rcases step_cases clk junk s i with ⟨-, -, e⟩ | ⟨r, rest, hn, ht, e⟩ | ⟨r, got, hn, hl, e⟩ | ⟨r, got, hn, hl, e⟩
  · rw [e]
    exact h k
  · have hx := hx hn (by rw [ht]; simp)
    rw [e]
    by_cases hk : k = i
    · subst hk
      simp only [update_same]
      obtain ⟨past, hp, ho⟩ := (h k).parts
      refine ⟨⟨past, ?_, ho⟩, fun r' got' hn' => ?_⟩
      · rw [hp, hn, ht]
        simp
      · cases hn'
        exact ⟨Nat.zero_le _, fun _ => rfl, rfl⟩
    · simp only [update_other _ _ hk]
      refine ⟨(h k).parts, fun r' got' hn' => ⟨((h k).got r' got' hn').1, fun hlt => absurd ⟨r', got', hn', hlt⟩ (hx k), ((h k).got r' got' hn').2.2⟩⟩
  · rw [e]
    by_cases hk : k = i
    · subst hk
      simp only [update_same, update_shared]
      obtain ⟨past, hp, ho⟩ := (h k).parts
      obtain ⟨h1, h2, hgot⟩ := (h k).got r got hn
      refine ⟨⟨past, ?_, ho⟩, fun r2 got2 hn2 => ?_⟩
      · rw [hp, hn]
        simp
      · simp only [Option.some.injEq, Prod.mk.injEq] at hn2
        obtain ⟨rfl, rfl⟩ := hn2
        refine ⟨by simp; omega, fun _ => h2 hl, ?_⟩
        rw [List.length_append, List.length_singleton, ← range_succ_map, ← hgot, h2 hl]
    · simp only [update_other _ _ hk, update_shared]
      exact h k
  · rw [e]
    by_cases hk : k = i
    · subst hk
      simp only [update_same, update_shared]
      obtain ⟨past, hp, ho⟩ := (h k).parts
      obtain ⟨h1, h2, hgot⟩ := (h k).got r got hn
      refine ⟨⟨past ++ [r], ?_, ?_⟩, fun r2 got2 hn2 => by cases hn2⟩
      · rw [hp, hn]
        simp
      · have : got.length = r.form.count := by omega
        rw [this] at hgot
        rw [ho, hgot, render_same]
        simp
    · simp only [update_other _ _ hk, update_shared]
      exact h k

theorem Exclusive.tail {clk : Nat} {junk : Nat → Str} {s : State} {i : Nat} {schedule : List Nat} (h : Exclusive clk junk s (i :: schedule)) :
    Exclusive clk junk (step clk junk s i) schedule := fun before k after e => h (i :: before) k after (by rw [e]; rfl)

theorem Exclusive.nil {clk : Nat} {junk : Nat → Str} {s : State} : Exclusive clk junk s [] := fun before k after e => by simp at e

theorem Exclusive.cons {clk : Nat} {junk : Nat → Str} {s : State} {i : Nat} {schedule : List Nat}
    (h : (s.threads i).now = none → (s.threads i).todo ≠ [] → ∀ k, ¬ Reading (s.threads k)) (ht : Exclusive clk junk (step clk junk s i) schedule) :
    Exclusive clk junk s (i :: schedule) := by
  intro before k after e
  cases before with
  | nil => cases e; exact h
  | cons b before => cases e; exact ht before k after rfl

/-- Whether a thread is reading. -/
def readingB (l : Local) : Bool :=
  match l.now with
  | some (r, got) => got.length < r.form.count
  | none => false

/-- Whether a schedule for threads below `n` is exclusive. -/
def check (clk : Nat) (junk : Nat → Str) (n : Nat) : State → List Nat → Bool
  | _, [] => true
  | s, i :: rest => ((s.threads i).now.isSome || (s.threads i).todo.isEmpty || (List.range n).all fun k => !readingB (s.threads k)) && check clk junk n (step clk junk s i) rest

theorem readingB_iff (l : Local) : readingB l = true ↔ Reading l := by
  unfold readingB Reading
  cases l.now with
  | none => simp
  | some p =>
    obtain ⟨r, got⟩ := p
    simp only [decide_eq_true_eq, Option.some.injEq, Prod.mk.injEq]
    exact ⟨fun h => ⟨r, got, ⟨rfl, rfl⟩, h⟩, fun ⟨r', got', ⟨h1, h2⟩, h⟩ => by subst h1; subst h2; exact h⟩

theorem exclusive_of_check (clk : Nat) (junk : Nat → Str) (n : Nat) : ∀ (schedule : List Nat) (s : State),
    (∀ k, n ≤ k → (s.threads k).todo = [] ∧ (s.threads k).now = none) → check clk junk n s schedule = true → Exclusive clk junk s schedule
  | [], _, _, _ => .nil
  | i :: rest, s, hk, h => by
    simp only [check, Bool.and_eq_true, Bool.or_eq_true, List.all_eq_true, List.mem_range, Bool.not_eq_true', List.isEmpty_iff] at h
    refine .cons (fun hn ht k hr => ?_) (exclusive_of_check clk junk n rest _ (fun k hle => ?_) h.2)
    · rcases h.1 with (h1 | h1) | h1
      · rw [hn] at h1; cases h1
      · exact ht h1
      · by_cases hlt : k < n
        · have := h1 k hlt
          rw [(readingB_iff _).2 hr] at this
          cases this
        · obtain ⟨r, got, hnow, -⟩ := hr
          rw [(hk k (by omega)).2] at hnow
          cases hnow
    · by_cases hki : k = i
      · subst hki
        have e : step clk junk s k = s := by simp only [step, (hk k hle).1, (hk k hle).2]
        rw [e]
        exact hk k hle
      · rcases step_cases clk junk s i with ⟨-, -, e⟩ | ⟨r, rest, -, -, e⟩ | ⟨r, got, -, -, e⟩ | ⟨r, got, -, -, e⟩ <;>
          rw [e] <;> first | exact hk k hle | (simp only [update_other _ _ hki]; exact hk k hle)

theorem undisturbed_run (clk : Nat) (junk : Nat → Str) (todo : Nat → List Request) (schedule : List Nat) : ∀ (s : State),
    (∀ k, Undisturbed clk junk (todo k) s.shared (s.threads k)) → Exclusive clk junk s schedule →
    ∀ k, Undisturbed clk junk (todo k) (run clk junk s schedule).shared ((run clk junk s schedule).threads k) := by
  induction schedule with
  | nil => exact fun s h _ => h
  | cons i schedule ih => exact fun s h hx => ih _ (undisturbed_step clk junk todo s h i (hx [] i schedule rfl)) hx.tail

theorem undisturbed_start (clk : Nat) (junk : Nat → Str) (shared : Tm) (todo : Nat → List Request) (k : Nat) :
    Undisturbed clk junk (todo k) (start shared todo).shared ((start shared todo).threads k) :=
  ⟨⟨[], rfl, rfl⟩, fun r got h => by cases h⟩

/-! ### Two threads with one call each -/

/-- The first `k` fields of `r`, the others of `r'`. -/
def torn (clk : Nat) (r r' : Request) (k n : Nat) : List Int := (List.range n).map fun j => fieldOf ((if j < k then r else r').tm clk) j

/-- What holds of thread 0, which formats `r`, while thread 1 formats `r'`. -/
structure Torn (clk : Nat) (junk : Nat → Str) (r r' : Request) (s : State) : Prop where
  other : ((s.threads 1).todo = [r'] ∧ (s.threads 1).now = none) ∨ (s.threads 1).todo = []
  rest : ∀ k, 2 ≤ k → (s.threads k).todo = [] ∧ (s.threads k).now = none
  before : (s.threads 0).now = none → (s.threads 0).out = [] → (s.threads 0).todo = [r]
  now : ∀ r2 got, (s.threads 0).now = some (r2, got) → r2 = r ∧ got.length ≤ r.form.count ∧ (s.threads 0).todo = [] ∧ (s.threads 0).out = [] ∧
    ∃ k, k ≤ got.length ∧ got = torn clk r r' k got.length ∧ ((s.shared = r.tm clk ∧ k = got.length) ∨ (s.shared = r'.tm clk ∧ (s.threads 1).todo = []))
  out : ∀ x ∈ (s.threads 0).out, ∃ k, k ≤ r.form.count ∧ x = render junk r.form (torn clk r r' k r.form.count)
  once : (s.threads 0).out ≠ [] → (s.threads 0).todo = []

theorem torn_succ (clk : Nat) (r r' : Request) (k n : Nat) : torn clk r r' k n ++ [fieldOf ((if n < k then r else r').tm clk) n] = torn clk r r' k (n + 1) :=
  range_succ_map (fun j => fieldOf ((if j < k then r else r').tm clk) j) n

theorem torn_more (clk : Nat) (r r' : Request) {k k' n : Nat} (h : n ≤ k) (h' : n ≤ k') : torn clk r r' k n = torn clk r r' k' n := by
  refine List.map_congr_left fun j hj => ?_
  simp only [List.mem_range] at hj
  simp only [show j < k by omega, show j < k' by omega, if_true]

theorem torn_step (clk : Nat) (junk : Nat → Str) (r r' : Request) (s : State) (h : Torn clk junk r r' s) (i : Nat) : Torn clk junk r r' (step clk junk s i) := by
  match i with
  | k + 2 =>
    have := h.rest (k + 2) (by omega)
    have e : step clk junk s (k + 2) = s := by simp only [step, this.2, this.1]
    rw [e]
    exact h
  | 1 =>
    rcases step_cases clk junk s 1 with ⟨-, -, e⟩ | ⟨r2, rest, hn, ht, e⟩ | ⟨r2, got, hn, hl, e⟩ | ⟨r2, got, hn, hl, e⟩
    · rw [e]
      exact h
    · rw [e]
      rcases h.other with ⟨ho, -⟩ | ho
      · rw [ho] at ht
        cases ht
        refine ⟨.inr (by simp), fun k hk => ?_, ?_, ?_, ?_, ?_⟩
        · simp only [update_other s _ (show k ≠ 1 by omega)]
          exact h.rest k hk
        · simp only [update_other s _ (show 0 ≠ 1 by omega)]
          exact h.before
        · simp only [update_other s _ (show 0 ≠ 1 by omega), update_same]
          intro r2 got hn2
          obtain ⟨h1, h2, h3, h4, k, h5, h6, h7⟩ := h.now r2 got hn2
          exact ⟨h1, h2, h3, h4, k, h5, h6, .inr ⟨trivial, trivial⟩⟩
        · simp only [update_other s _ (show 0 ≠ 1 by omega)]
          exact h.out
        · simp only [update_other s _ (show 0 ≠ 1 by omega)]
          exact h.once
      · rw [ho] at ht
        cases ht
    all_goals
      rw [e]
      refine ⟨?_, fun k hk => ?_, ?_, ?_, ?_, ?_⟩
      · rcases h.other with ⟨-, ho⟩ | ho
        · rw [ho] at hn
          cases hn
        · exact .inr (by simp [ho])
      · simp only [update_other s _ (show k ≠ 1 by omega)]
        exact h.rest k hk
      · simp only [update_other s _ (show 0 ≠ 1 by omega)]
        exact h.before
      · simp only [update_other s _ (show 0 ≠ 1 by omega), update_same, update_shared]
        exact h.now
      · simp only [update_other s _ (show 0 ≠ 1 by omega)]
        exact h.out
      · simp only [update_other s _ (show 0 ≠ 1 by omega)]
        exact h.once
  | 0 =>
    rcases step_cases clk junk s 0 with ⟨-, -, e⟩ | ⟨r2, rest, hn, ht, e⟩ | ⟨r2, got, hn, hl, e⟩ | ⟨r2, got, hn, hl, e⟩
    · rw [e]
      exact h
    · rw [e]
      by_cases hout : (s.threads 0).out = []
      · have := h.before hn hout
        rw [this] at ht
        cases ht
        refine ⟨?_, fun k hk => ?_, ?_, ?_, ?_, ?_⟩
        · simp only [update_other s _ (show 1 ≠ 0 by omega)]
          exact h.other
        · simp only [update_other s _ (show k ≠ 0 by omega)]
          exact h.rest k hk
        · simp only [update_same]
          intro h
          cases h
        · simp only [update_same]
          rintro r2 got hn2
          cases hn2
          exact ⟨rfl, Nat.zero_le _, trivial, hout, 0, Nat.le_refl _, rfl, .inl ⟨trivial, rfl⟩⟩
        · simp only [update_same]
          exact h.out
        · simp only [update_same]
          exact fun _ => trivial
      · rw [h.once hout] at ht
        cases ht
    · rw [e]
      obtain ⟨rfl, h2, h3, h4, k, h5, h6, h7⟩ := h.now r2 got hn
      refine ⟨?_, fun k hk => ?_, ?_, ?_, ?_, ?_⟩
      · simp only [update_other s _ (show 1 ≠ 0 by omega)]
        exact h.other
      · simp only [update_other s _ (show k ≠ 0 by omega)]
        exact h.rest k hk
      · simp only [update_same]
        intro h
        cases h
      · simp only [update_same, update_shared, update_other s _ (show 1 ≠ 0 by omega)]
        rintro r3 got' hn2
        simp only [Option.some.injEq, Prod.mk.injEq] at hn2
        obtain ⟨rfl, rfl⟩ := hn2
        refine ⟨rfl, by simp; omega, h3, h4, ?_⟩
        rw [List.length_append, List.length_singleton]
        rcases h7 with ⟨hs, rfl⟩ | ⟨hs, ht⟩
        · refine ⟨got.length + 1, Nat.le_refl _, ?_, .inl ⟨hs, rfl⟩⟩
          rw [← torn_succ, torn_more clk _ r' (Nat.le_succ _) (Nat.le_refl _), ← h6, hs]
          simp
        · refine ⟨k, by omega, ?_, .inr ⟨hs, ht⟩⟩
          rw [← torn_succ, ← h6, hs]
          simp [show ¬ got.length < k by omega]
      · simp only [update_same]
        exact h.out
      · simp only [update_same]
        exact h.once
    · rw [e]
      obtain ⟨rfl, h2, h3, h4, k, h5, h6, h7⟩ := h.now r2 got hn
      refine ⟨?_, fun k hk => ?_, ?_, ?_, ?_, ?_⟩
      · simp only [update_other s _ (show 1 ≠ 0 by omega)]
        exact h.other
      · simp only [update_other s _ (show k ≠ 0 by omega)]
        exact h.rest k hk
      · simp only [update_same]
        intro _ h
        simp at h
      · simp only [update_same]
        intro r2 got h
        cases h
      · simp only [update_same, h4, List.nil_append, List.mem_singleton]
        rintro x rfl
        have hlen : got.length = r2.form.count := by omega
        rw [hlen] at h5 h6
        exact ⟨k, h5, by rw [h6]⟩
      · simp only [update_same]
        exact fun _ => h3

theorem torn_run (clk : Nat) (junk : Nat → Str) (r r' : Request) (schedule : List Nat) : ∀ s, Torn clk junk r r' s → Torn clk junk r r' (run clk junk s schedule) := by
  induction schedule with
  | nil => exact fun s h => h
  | cons i schedule ih => exact fun s h => ih _ (torn_step clk junk r r' s h i)

/-- Thread 0 reads fields, undisturbed. -/
theorem reads (clk : Nat) (junk : Nat → Str) (r : Request) (todo : List Request) (out : List Str) : ∀ (n : Nat) (s : State) (got : List Int),
    s.threads 0 = ⟨todo, some (r, got), out⟩ → got.length + n ≤ r.form.count →
    (run clk junk s (List.replicate n 0)).threads 0 = ⟨todo, some (r, got ++ (List.range n).map fun j => fieldOf s.shared (got.length + j)), out⟩ ∧
    (run clk junk s (List.replicate n 0)).shared = s.shared ∧ (∀ k, k ≠ 0 → (run clk junk s (List.replicate n 0)).threads k = s.threads k)
  | 0, s, got, h, _ => ⟨by simp [run, h], rfl, fun _ _ => rfl⟩
  | n + 1, s, got, h, hn => by
    have e : step clk junk s 0 = s.update 0 ⟨todo, some (r, got ++ [fieldOf s.shared got.length]), out⟩ := by
      simp only [step, h, show got.length < r.form.count by omega, if_true]
    obtain ⟨h1, h2, h3⟩ := reads clk junk r todo out n (step clk junk s 0) (got ++ [fieldOf s.shared got.length]) (by rw [e]; simp) (by simp; omega)
    rw [List.replicate_succ, run_cons]
    refine ⟨?_, ?_, fun k hk => ?_⟩
    · rw [h1, e]
      simp only [update_shared, List.append_assoc, List.length_append, List.length_singleton, List.range_succ_eq_map, List.map_cons, List.map_map,
        List.singleton_append, Nat.add_zero]
      congr 5
      refine List.map_congr_left fun j _ => ?_
      simp only [Function.comp, Nat.succ_eq_add_one]
      congr 1
      omega
    · rw [h2, e]
      rfl
    · rw [h3 k hk, e, update_other _ _ hk]

end Verif.Threads
