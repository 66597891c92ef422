/-!
Finite maps and sets as association lists. They stand for Rust's `HashMap`, `BTreeMap`, `HashSet`.
`FMap` keeps no particular order; `OMap.insert` keeps entries ordered by a given strict order and is
used where the Rust code iterates a `BTreeMap` and the order is observable.
-/

set_option autoImplicit false

namespace Verif

/-- `HashMap<K, V>` as an association list. -/
structure FMap (K V : Type) where
  entries : List (K × V)
deriving DecidableEq, Repr

namespace FMap
variable {K V : Type} [DecidableEq K]

def empty : FMap K V := ⟨[]⟩

def lookupL (l : List (K × V)) (k : K) : Option V :=
  match l with
  | [] => none
  | (k', v) :: t => if k' = k then some v else lookupL t k

/-- `HashMap::get` -/
def get (m : FMap K V) (k : K) : Option V := lookupL m.entries k

/-- `HashMap::remove` (the resulting map). -/
def erase (m : FMap K V) (k : K) : FMap K V := ⟨m.entries.filter (fun e => decide (e.1 ≠ k))⟩

/-- `HashMap::insert` (the resulting map). -/
def set (m : FMap K V) (k : K) (v : V) : FMap K V := ⟨(k, v) :: (m.erase k).entries⟩

/-- `HashMap::is_empty` -/
def isEmpty (m : FMap K V) : Bool := m.entries.isEmpty

/-- `HashMap::len` -/
def size (m : FMap K V) : Nat := m.entries.length

/-- `HashMap::extend`: insert all entries of a list, later ones win. -/
def extend (m : FMap K V) (l : List (K × V)) : FMap K V := l.foldl (fun m e => m.set e.1 e.2) m

/-- Every key occurs once: holds for every map built by the operations above. -/
def NodupKeys (m : FMap K V) : Prop := (m.entries.map Prod.fst).Nodup

@[simp] theorem get_empty (k : K) : (empty : FMap K V).get k = none := rfl

theorem lookupL_filter (l : List (K × V)) (k k' : K) :
    lookupL (l.filter (fun e => decide (e.1 ≠ k))) k' = if k' = k then none else lookupL l k' := by
  induction l with
  | nil => simp [lookupL]
  | cons e t ih =>
    obtain ⟨a, v⟩ := e
    by_cases h : a = k
    · subst h
      rw [List.filter_cons_of_neg (by simp), ih]
      by_cases h2 : k' = a
      · simp [h2]
      · simp [h2, lookupL, Ne.symm h2]
    · rw [List.filter_cons_of_pos (by simpa using h)]
      simp only [lookupL, ih]
      by_cases h2 : a = k'
      · subst h2; simp [h]
      · simp [h2]

@[simp] theorem get_erase (m : FMap K V) (k k' : K) :
    (m.erase k).get k' = if k' = k then none else m.get k' := lookupL_filter _ _ _

@[simp] theorem get_set (m : FMap K V) (k k' : K) (v : V) :
    (m.set k v).get k' = if k' = k then some v else m.get k' := by
  simp only [get, set, lookupL, erase, lookupL_filter]
  by_cases h : k = k'
  · simp [h]
  · simp [h, Ne.symm h]

theorem get_eq_none_iff (m : FMap K V) (k : K) : m.get k = none ↔ k ∉ m.entries.map Prod.fst := by
  obtain ⟨l⟩ := m
  simp only [get]
  induction l with
  | nil => simp [lookupL]
  | cons e t ih =>
    obtain ⟨a, v⟩ := e
    simp only [lookupL, List.map_cons, List.mem_cons, not_or]
    by_cases h : a = k
    · simp [h]
    · simp [h, ih, Ne.symm h]

theorem mem_of_get {m : FMap K V} {k : K} {v : V} (h : m.get k = some v) : (k, v) ∈ m.entries := by
  obtain ⟨l⟩ := m
  simp only [get] at h
  induction l with
  | nil => simp [lookupL] at h
  | cons e t ih =>
    obtain ⟨a, w⟩ := e
    simp only [lookupL] at h
    by_cases h2 : a = k
    · simp [h2] at h; simp [h, h2]
    · simp [h2] at h; exact List.mem_cons_of_mem _ (ih h)

theorem get_of_mem {m : FMap K V} (hn : m.NodupKeys) {k : K} {v : V} (h : (k, v) ∈ m.entries) :
    m.get k = some v := by
  obtain ⟨l⟩ := m
  simp only [get, NodupKeys] at *
  induction l with
  | nil => simp at h
  | cons e t ih =>
    obtain ⟨a, w⟩ := e
    simp only [List.map_cons, List.nodup_cons] at hn
    simp only [lookupL]
    rcases List.mem_cons.1 h with h | h
    · simp only [Prod.mk.injEq] at h; simp [h.1, h.2]
    · have : a ≠ k := by
        rintro rfl; exact hn.1 (List.mem_map.2 ⟨_, h, rfl⟩)
      simp [this, ih hn.2 h]

theorem mem_iff_get {m : FMap K V} (hn : m.NodupKeys) {k : K} {v : V} :
    (k, v) ∈ m.entries ↔ m.get k = some v := ⟨get_of_mem hn, mem_of_get⟩

omit [DecidableEq K] in
theorem nodupKeys_empty : (empty : FMap K V).NodupKeys := by simp [NodupKeys, empty]

theorem NodupKeys.erase {m : FMap K V} (h : m.NodupKeys) (k : K) : (m.erase k).NodupKeys := by
  unfold NodupKeys FMap.erase at *
  exact (List.filter_sublist.map _).nodup h

theorem NodupKeys.set {m : FMap K V} (h : m.NodupKeys) (k : K) (v : V) : (m.set k v).NodupKeys := by
  have h1 := h.erase k
  have h2 : (m.erase k).get k = none := by simp
  rw [get_eq_none_iff] at h2
  unfold NodupKeys FMap.set at *
  simpa using ⟨by simpa using h2, h1⟩

theorem isEmpty_iff (m : FMap K V) : m.isEmpty = true ↔ ∀ k, m.get k = none := by
  constructor
  · intro h k
    obtain ⟨l⟩ := m
    simp [isEmpty] at h; subst h; rfl
  · intro h
    obtain ⟨l⟩ := m
    cases l with
    | nil => rfl
    | cons e t =>
      obtain ⟨a, v⟩ := e
      have := h a
      simp [get, lookupL] at this

theorem get_extend (l : List (K × V)) (m : FMap K V) (hl : (l.map Prod.fst).Nodup) (k : K) :
    (m.extend l).get k = ((⟨l⟩ : FMap K V).get k).or (m.get k) := by
  induction l generalizing m with
  | nil => simp [extend, get, lookupL]
  | cons e t ih =>
    obtain ⟨a, v⟩ := e
    simp only [List.map_cons, List.nodup_cons] at hl
    have : (m.extend ((a, v) :: t)) = (m.set a v).extend t := rfl
    rw [this, ih _ hl.2]
    by_cases h : a = k
    · subst h
      have hn : (⟨t⟩ : FMap K V).get a = none := by rw [get_eq_none_iff]; exact hl.1
      rw [hn, get_set]
      simp [get, lookupL]
    · have h' : k ≠ a := Ne.symm h
      simp [h']
      simp [get, lookupL, h]

theorem NodupKeys.extend {m : FMap K V} (h : m.NodupKeys) (l : List (K × V)) :
    (m.extend l).NodupKeys := by
  induction l generalizing m with
  | nil => exact h
  | cons e t ih => exact ih (h.set _ _)

end FMap

/-- `HashSet<K>` as a list without duplicates. -/
structure FSet (K : Type) where
  elems : List K
deriving DecidableEq, Repr

namespace FSet
variable {K : Type} [DecidableEq K]
def empty : FSet K := ⟨[]⟩
def contains (s : FSet K) (k : K) : Bool := decide (k ∈ s.elems)
/-- `HashSet::insert` (the resulting set; unchanged when present). -/
def insert (s : FSet K) (k : K) : FSet K := if k ∈ s.elems then s else ⟨k :: s.elems⟩
def erase (s : FSet K) (k : K) : FSet K := ⟨s.elems.filter (fun e => decide (e ≠ k))⟩
def isEmpty (s : FSet K) : Bool := s.elems.isEmpty
def size (s : FSet K) : Nat := s.elems.length

instance : Membership K (FSet K) := ⟨fun s k => k ∈ s.elems⟩
omit [DecidableEq K] in
theorem mem_def (s : FSet K) (k : K) : k ∈ s ↔ k ∈ s.elems := Iff.rfl
omit [DecidableEq K] in
@[simp] theorem not_mem_empty (k : K) : ¬ k ∈ (empty : FSet K) := by simp [mem_def, empty]
@[simp] theorem mem_insert (s : FSet K) (k k' : K) : k' ∈ s.insert k ↔ k' = k ∨ k' ∈ s := by
  unfold insert
  split
  · rename_i h
    constructor
    · intro h'; exact .inr h'
    · rintro (rfl | h')
      · exact h
      · exact h'
  · simp [mem_def]
@[simp] theorem mem_erase (s : FSet K) (k k' : K) : k' ∈ s.erase k ↔ k' ∈ s ∧ k' ≠ k := by
  simp [mem_def, erase]
theorem contains_iff (s : FSet K) (k : K) : s.contains k = true ↔ k ∈ s := by
  simp [contains, mem_def]
omit [DecidableEq K] in
theorem isEmpty_iff (s : FSet K) : s.isEmpty = true ↔ ∀ k, ¬ k ∈ s := by
  obtain ⟨l⟩ := s
  cases l with
  | nil => simp [isEmpty, mem_def]
  | cons a t =>
    simp only [isEmpty, List.isEmpty_cons, Bool.false_eq_true, mem_def, false_iff]
    intro h; exact h a (by simp)
instance (s : FSet K) (k : K) : Decidable (k ∈ s) := inferInstanceAs (Decidable (k ∈ s.elems))
end FSet

/-- `BTreeMap<K, V>` where iteration order matters: a list kept ordered by `lt`. -/
structure OMap (K V : Type) where
  entries : List (K × V)
deriving DecidableEq, Repr

namespace OMap
variable {K V : Type} [DecidableEq K]
def empty : OMap K V := ⟨[]⟩
def insertL (lt : K → K → Bool) (k : K) (v : V) : List (K × V) → List (K × V)
  | [] => [(k, v)]
  | (k', v') :: t =>
    if lt k k' then (k, v) :: (k', v') :: t
    else if k' = k then (k, v) :: t
    else (k', v') :: insertL lt k v t
/-- `BTreeMap::insert` -/
def insert (lt : K → K → Bool) (m : OMap K V) (k : K) (v : V) : OMap K V := ⟨insertL lt k v m.entries⟩
def get (m : OMap K V) (k : K) : Option V := FMap.lookupL m.entries k
/-- `BTreeMap::extend` -/
def extend (lt : K → K → Bool) (m : OMap K V) (l : List (K × V)) : OMap K V :=
  l.foldl (fun m e => m.insert lt e.1 e.2) m
def isEmpty (m : OMap K V) : Bool := m.entries.isEmpty
end OMap

end Verif
