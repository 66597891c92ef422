import Verif.Proofs.Values
import Verif.Props.Examples
/-! Properties C29 and C30: the value history of the in-memory store. -/

set_option autoImplicit false

namespace Verif.Props
open Verif Verif.Jmt Verif.Spec
variable {D : Type}

/-! ### C29 -/

/-- A write to the value history: version, key, value or deletion. -/
abbrev Write := (Version × Key) × Option Value

/-- The value histories of the store: key to list of versions. -/
abbrev Histories := FMap Key (List (Version × Option Value))

/-- Perform the writes in order with `put_value`; a rejected write changes nothing. -/
def tryWrites (l : List Write) : Histories :=
  l.foldl (fun vh e => match Store.putValueHistory vh e.1.1 e.1.2 e.2 with | .ok vh' => vh' | .error _ => vh) .empty

/-- Specification of which writes count: a write is accepted unless an accepted earlier one of the same key has a larger version. -/
def accepted (l : List Write) : List Write :=
  l.foldl (fun acc e => if ∀ a ∈ acc, a.1.2 = e.1.2 → a.1.1 ≤ e.1.1 then acc ++ [e] else acc) []

/-- Specification of a read: the last write to `k` with version at most `v`. -/
def latest (l : List Write) (v : Version) (k : Key) : Option Value :=
  (l.reverse.find? (fun e => decide (e.1.2 = k ∧ e.1.1 ≤ v))).bind (fun e => e.2)

/-- What a history map knows about the accepted writes. -/
structure Faithful (acc : List Write) (vh : Histories) : Prop where
  find : ∀ k w, ((vhGet vh k).reverse.find? (fun e => decide (e.1 ≤ w))).bind (fun e => e.2) = latest acc w k
  last : ∀ k e, (vhGet vh k).getLast? = some e → (∀ a ∈ acc, a.1.2 = k → a.1.1 ≤ e.1) ∧ ∃ a ∈ acc, a.1.2 = k ∧ a.1.1 = e.1
  none : ∀ k, (vhGet vh k).getLast? = none → ∀ a ∈ acc, a.1.2 ≠ k

theorem Faithful.rejected {acc : List Write} {vh : Histories} (h : Faithful acc vh) (v : Version) (k : Key) (x : Option Value) :
    (∃ e, Store.putValueHistory vh v k x = .error e) ↔ ∃ a ∈ acc, a.1.2 = k ∧ v < a.1.1 := by
  rcases putValueHistory_cases vh v k x with ⟨vh', h', e1, e2, e3⟩ | ⟨e1, e, e2, e3⟩
  · rw [e1]
    constructor
    · rintro ⟨e, he⟩; cases he
    · rintro ⟨a, ha, hk, hv⟩
      exfalso
      cases hl : (vhGet vh k).getLast? with
      | none => exact h.none k hl a ha hk
      | some e =>
        have := (h.last k e hl).1 a ha hk
        cases e2 with
        | push hp => have := hp e hl; omega
        | over h1 y he => rw [he] at hl; simp at hl; subst hl; simp only at this; omega
  · rw [e1]
    constructor
    · intro _
      obtain ⟨a, ha, hk, hv⟩ := (h.last k e e2).2
      exact ⟨a, ha, hk, by omega⟩
    · intro _; exact ⟨_, rfl⟩

theorem Faithful.step {acc : List Write} {vh : Histories} (h : Faithful acc vh) (e : Write) :
    Faithful (if ∀ a ∈ acc, a.1.2 = e.1.2 → a.1.1 ≤ e.1.1 then acc ++ [e] else acc)
      (match Store.putValueHistory vh e.1.1 e.1.2 e.2 with | .ok vh' => vh' | .error _ => vh) := by
  obtain ⟨⟨v, k⟩, x⟩ := e
  have hrej := h.rejected v k x
  simp only
  rcases putValueHistory_cases vh v k x with ⟨vh', h', e1, e2, e3⟩ | ⟨e1, e, e2, e3⟩
  · have hall : ∀ a ∈ acc, a.1.2 = k → a.1.1 ≤ v := by
      intro a ha hk
      by_contra hc
      obtain ⟨err, he⟩ := hrej.2 ⟨a, ha, hk, by omega⟩
      rw [e1] at he; cases he
    rw [if_pos hall, e1]
    refine ⟨?_, ?_, ?_⟩
    · intro k' w
      rw [e3]
      unfold latest
      rw [List.reverse_append, List.reverse_singleton, List.singleton_append, List.find?_cons]
      by_cases hk : k' = k
      · subst hk
        rw [if_pos rfl, e2.find]
        by_cases hw : v ≤ w
        · simp [hw]
        · rw [if_neg hw, h.find]; simp [hw, latest]
      · rw [if_neg hk, h.find]
        simp [Ne.symm hk, latest]
    · intro k' e he
      rw [e3] at he
      by_cases hk : k' = k
      · subst hk
        rw [if_pos rfl, e2.last] at he
        cases he
        refine ⟨?_, ((v, k'), x), by simp, rfl, rfl⟩
        intro a ha hk
        rw [List.mem_append] at ha
        rcases ha with ha | ha
        · exact hall a ha hk
        · simp only [List.mem_singleton] at ha; subst ha; exact Nat.le_refl _
      · rw [if_neg hk] at he
        obtain ⟨g1, a, g2, g3⟩ := h.last k' e he
        refine ⟨?_, a, by simp [g2], g3⟩
        intro a ha hk'
        rw [List.mem_append] at ha
        rcases ha with ha | ha
        · exact g1 a ha hk'
        · simp only [List.mem_singleton] at ha; subst ha; exact absurd hk'.symm hk
    · intro k' he a ha hk'
      rw [e3] at he
      by_cases hk : k' = k
      · rw [if_pos hk, e2.last] at he; cases he
      · rw [if_neg hk] at he
        rw [List.mem_append] at ha
        rcases ha with ha | ha
        · exact h.none k' he a ha hk'
        · simp only [List.mem_singleton] at ha; subst ha; exact hk hk'.symm
  · obtain ⟨a, ha, hk, hv⟩ := (h.last k e e2).2
    rw [if_neg (by intro hc; have := hc a ha hk; omega), e1]
    exact h

theorem faithful (l : List Write) : Faithful (accepted l) (tryWrites l) := by
  have key : ∀ (acc : List Write) (vh : Histories), Faithful acc vh →
      Faithful (l.foldl (fun acc e => if ∀ a ∈ acc, a.1.2 = e.1.2 → a.1.1 ≤ e.1.1 then acc ++ [e] else acc) acc)
        (l.foldl (fun vh e => match Store.putValueHistory vh e.1.1 e.1.2 e.2 with | .ok vh' => vh' | .error _ => vh) vh) := by
    induction l with
    | nil => exact fun _ _ h => h
    | cons e l ih => exact fun _ _ h => ih _ _ (h.step e)
  exact key [] .empty ⟨by simp [vhGet, latest], by simp [vhGet], by simp⟩

/-- **C29.** After any sequence of writes to the value history of a store, `get_value_option(v, k)` is the value of the last
accepted write to `k` with version at most `v`; `None` if that is a deletion or there is none. -/
theorem C29_latest_value (s : Store D) (l : List Write) (hs : s.valueHistory = tryWrites l) (v : Version) (k : Key) :
    s.getValueOption v k = latest (accepted l) v k := by
  rw [getValueOption_eq, hs, (faithful l).find]

/-- **C29**, rejections: after any sequence of writes, a write of `k` at version `v` fails exactly if some accepted write of `k` has a larger
version. -/
theorem C29_rejected (l : List Write) (v : Version) (k : Key) (x : Option Value) :
    (∃ e, Store.putValueHistory (tryWrites l) v k x = .error e) ↔ ∃ a ∈ accepted l, a.1.2 = k ∧ v < a.1.1 :=
  (faithful l).rejected v k x

/-- **C29**, whole batches: the value loop of `write_node_batch`, run after the writes `l0`, succeeds exactly if each of the batch's writes is accepted, and
then it has performed these writes. -/
theorem C29_batch (l0 l : List Write) :
    (∀ vh, Store.writeValues l (tryWrites l0) = .ok vh → vh = tryWrites (l0 ++ l)) ∧
    ((∃ vh, Store.writeValues l (tryWrites l0) = .ok vh) ↔ accepted (l0 ++ l) = accepted l0 ++ l) := by
  induction l generalizing l0 with
  | nil => simp [Store.writeValues]
  | cons e l ih =>
    obtain ⟨⟨v, k⟩, x⟩ := e
    have happ : l0 ++ ((v, k), x) :: l = (l0 ++ [((v, k), x)]) ++ l := by simp
    have hacc : accepted (l0 ++ [((v, k), x)]) =
        if ∀ a ∈ accepted l0, a.1.2 = k → a.1.1 ≤ v then accepted l0 ++ [((v, k), x)] else accepted l0 := by
      unfold accepted
      rw [List.foldl_append]
      rfl
    have htry : tryWrites (l0 ++ [((v, k), x)]) =
        match Store.putValueHistory (tryWrites l0) v k x with | .ok vh' => vh' | .error _ => tryWrites l0 := by
      simp [tryWrites, List.foldl_append]
    have hlen : ∀ a b : List Write, (accepted (a ++ b)).length ≤ (accepted a).length + b.length := by
      intro a b
      induction b generalizing a with
      | nil => simp
      | cons y b ihb =>
        have h1 := ihb (a ++ [y])
        have h2 : (accepted (a ++ [y])).length ≤ (accepted a).length + 1 := by
          simp only [accepted, List.foldl_append, List.foldl_cons, List.foldl_nil]
          split <;> simp
        rw [List.append_assoc, List.singleton_append] at h1
        simp only [List.length_cons]
        omega
    have hrej := (faithful l0).rejected v k x
    cases hp : Store.putValueHistory (tryWrites l0) v k x with
    | ok vh1 =>
      rw [hp] at htry
      have hall : ∀ a ∈ accepted l0, a.1.2 = k → a.1.1 ≤ v := by
        intro a ha hk
        by_contra hc
        obtain ⟨err, he⟩ := hrej.2 ⟨a, ha, hk, by omega⟩
        rw [hp] at he; cases he
      rw [if_pos hall] at hacc
      simp only [Store.writeValues, hp, Res.ok_bind]
      simp only at htry
      rw [happ, ← htry]
      have := ih (l0 ++ [((v, k), x)])
      rw [hacc] at this
      simpa using this
    | error err =>
      simp only [Store.writeValues, hp]
      obtain ⟨a, ha, hk, hv⟩ := hrej.1 ⟨err, hp⟩
      rw [if_neg (by intro hc; have := hc a ha hk; omega)] at hacc
      refine ⟨(by intro vh h; cases h), ?_⟩
      constructor
      · rintro ⟨vh, h⟩; cases h
      · intro h
        exfalso
        have h1 := hlen (l0 ++ [((v, k), x)]) l
        rw [← happ, h, hacc] at h1
        simp only [List.length_append, List.length_cons] at h1
        omega

/-- Writes in order, out of order and repeated. -/
def exWrites : List Write := [((1, key 1 1), some [1]), ((3, key 1 1), some [3]), ((2, key 1 1), some [2]), ((3, key 1 1), none),
  ((0, key 2 2), some [7])]

example : accepted exWrites = [((1, key 1 1), some [1]), ((3, key 1 1), some [3]), ((3, key 1 1), none), ((0, key 2 2), some [7])] := by
  decide +kernel
example : (Store.mk (D := Term) .empty .empty (tryWrites exWrites) false).getValueOption 2 (key 1 1) = some [1] := by
  rw [C29_latest_value _ exWrites rfl]; decide +kernel
example : ∃ e, Store.putValueHistory (tryWrites exWrites) 2 (key 1 1) (some []) = .error e :=
  (C29_rejected _ _ _ _).2 ⟨((3, key 1 1), none), by decide +kernel, rfl, by decide⟩

/-! ### C30 -/

/-- **C30**, `len` and `is_empty`: after any run `len` is the number of keys of the latest contents, and `is_empty` says whether that
is 0. -/
theorem C30_len (H : Hasher D) (v0 next : Version) (ops : List Op) (s : Store D) (h : Reached H v0 ops s next) (L : List (Key × D))
    (hL : Lists H (contents ((commitsOf ops).map Commit.updates)) L) :
    s.len = L.length ∧ (s.isEmpty = true ↔ ∀ k, contents ((commitsOf ops).map Commit.updates) k = none) := by
  obtain ⟨_, hi⟩ := h.inv
  have hl := hi.len hL
  refine ⟨hl, ?_⟩
  unfold Store.isEmpty
  rw [hl, beq_iff_eq, List.length_eq_zero_iff]
  constructor
  · rintro rfl k
    cases hc : contents ((commitsOf ops).map Commit.updates) k with
    | none => rfl
    | some x => have := (hL.2 k (H.value x)).2 (by rw [hc]; rfl); cases this
  · intro hn
    cases L with
    | nil => rfl
    | cons e L =>
      have := (hL.2 e.1 e.2).1 (by simp)
      rw [hn] at this; cases this

/-- **C30**, `version`, as far as it holds: `version()` is the latest committed version whose value set is not empty, and 0 if there is
none. Full claim: it is the latest committed version; false after an empty value set, see `C30_version_false`. -/
theorem C30_version_partial (H : Hasher D) (v0 next : Version) (ops : List Op) (s : Store D) (h : Reached H v0 ops s next) :
    (∀ i cm, (commitsOf ops)[i]? = some cm → cm.updates ≠ [] → v0 + i ≤ s.version) ∧
    (s.version = 0 ∨ ∃ i cm, (commitsOf ops)[i]? = some cm ∧ cm.updates ≠ [] ∧ s.version = v0 + i) := h.inv.2.version

/-- **C30**, `version`, in the usual case: if the latest value set is not empty then `version()` is the latest version. -/
theorem C30_version_latest_partial (H : Hasher D) (v0 next : Version) (ops : List Op) (s : Store D) (h : Reached H v0 ops s next)
    (cm : Commit) (hc : (commitsOf ops).getLast? = some cm) (hne : cm.updates ≠ []) : s.version + 1 = next := by
  obtain ⟨rfl, hi⟩ := h.inv
  obtain ⟨h1, h2⟩ := hi.version
  rw [List.getLast?_eq_getElem?] at hc
  have hlt := (List.getElem?_eq_some_iff.1 hc).1
  have := h1 _ cm hc hne
  rcases h2 with h2 | ⟨i, cm', h3, h4, h5⟩
  · omega
  · have := (List.getElem?_eq_some_iff.1 h3).1
    omega

/-- **C30** is false for `version` as stated: after committing one key at version 0 and an empty set at version 1, `version()` is 0. -/
theorem C30_version_false : ∃ s, Reached termHasher 0 [.update true [[(key 1 1, some [1])], []]] s 2 ∧ s.version = 0 :=
  ⟨_, ⟨⟨.inl rfl, by simp [commitsOf, Op.commits]⟩, rfl⟩, by decide⟩

example : ∃ s L, Reached termHasher 0 exOps s 3 ∧ Lists termHasher (contents ((commitsOf exOps).map Commit.updates)) L ∧ s.len = L.length := by
  obtain ⟨s, h⟩ := exOps_reached
  obtain ⟨L, hL⟩ := lists_exists termHasher ((commitsOf exOps).map Commit.updates)
  exact ⟨s, L, h, hL, (C30_len _ _ _ _ _ h L hL).1⟩

example : ∃ s, Reached termHasher 0 exOps s 3 ∧ s.version + 1 = 3 := by
  obtain ⟨s, h⟩ := exOps_reached
  exact ⟨s, h, C30_version_latest_partial _ _ _ _ _ h (.seq true [(key 9 9, none)]) rfl (by simp [Commit.updates])⟩

end Verif.Props
