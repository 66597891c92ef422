import Verif.Proofs.PmtIter
import Verif.Props.PmtExamples
/-! Iteration over the Patricia trie: C45. -/

set_option autoImplicit false

namespace Verif.Props
open Verif Verif.Pmt PmtEx

variable {K : Keccak}

/-- The visit of a trie that stands for a map. -/
theorem visits_pairs {P : Prop} {db : Db} {tr : Trie} {m : Spec.Map} (hR : Reads K (InLog db) db) (hh : HandleInv K P db tr m)
    (he : m [] = none ∨ (P ∧ ∀ k, k ≠ [] → m k = none)) : ∃ l : List (Bytes × Bytes), Visits db (Iter.new tr) l ⟨[], []⟩ ∧
      l.Pairwise (fun a b => a.1 < b.1) ∧ ∀ k v, (k, v) ∈ l ↔ m k = some v := by
  obtain ⟨_, t, hrep, hok, ag, hcn⟩ := hh
  have hsafe : Safe [] t := by
    rintro cs v rfl
    rcases he with he | ⟨hp, he⟩
    · have := ag.get []
      rw [he] at this
      cases this
    · exfalso
      have h0 : m [] = some v := (ag.get []).symm
      have ag' : Agrees (.leaf [] v) m := by
        refine ⟨fun k => ?_, fun x hx => ?_⟩
        · by_cases hk : k = []
          · subst hk; exact h0.symm
          · rw [he k hk]
            have : ([] : List Nib) ≠ nibsOf k := by
              intro e
              exact hk (nibsOf_inj (a := []) e).symm
            simp only [PT.get, if_neg this]
        · by_cases hx0 : x = []
          · subst hx0; exact ⟨[], rfl⟩
          · simp only [PT.get, if_neg (Ne.symm hx0)] at hx
            cases hx
      have := ag.unique ag' (hcn hp) trivial
      cases this
  have hv := visited_root hR hok hrep [] [] hsafe
  refine ⟨outs [] t, hv, ?_, ?_⟩
  · refine List.pairwise_map.2 ((entries_sorted t).imp_of_mem ?_)
    intro a b ha hb hab
    obtain ⟨ka, hka⟩ := ag.keys a.1 (by rw [(mem_entries t a.1 a.2).1 ha]; rfl)
    obtain ⟨kb, hkb⟩ := ag.keys b.1 (by rw [(mem_entries t b.1 b.2).1 hb]; rfl)
    rw [hka, hkb] at hab
    simp only [List.nil_append, hka, hkb, pack_nibsOf]
    exact lt_of_nibsOf_lt hab
  · intro k v
    constructor
    · intro h
      obtain ⟨⟨x, w⟩, hx, e⟩ := List.mem_map.1 h
      have hx' := (mem_entries t x w).1 hx
      obtain ⟨k', rfl⟩ := ag.keys x (by rw [hx']; rfl)
      simp only [List.nil_append, pack_nibsOf, Prod.mk.injEq] at e
      obtain ⟨rfl, rfl⟩ := e
      rw [← ag.get k']
      exact hx'
    · intro h
      rw [← ag.get k] at h
      refine List.mem_map.2 ⟨(nibsOf k, v), (mem_entries t _ _).2 h, ?_⟩
      simp [pack_nibsOf]

/-- **C45** for tries without the empty key, and for tries with the empty key alone. Iterating any trie after a program on an archive database ends;
the pairs come in increasing lexicographic order of the keys (so none twice), and they are the pairs of the map. Otherwise two of the stored byte
strings have the same hash. Missing from the full statement: the empty key together with others, on which the iterator panics
(`C45_empty_key_panics`); for the empty key alone, removals of proper prefixes of present keys at which no other entries part are excluded, after
which it panics, too (`C45_lone_empty_key_false`). -/
theorem C45_iterate_partial {ops : List Op} (hfit : ∀ op ∈ ops, Spec.Fits op) {s : Sys} {rs : List Ret}
    (hrun : (Sys.new false).run K ops = .ok (s, rs)) {i : Nat} {tr : Trie} {m : Spec.Map} (htr : s.tries[i]? = some tr)
    (hm : (Spec.run ops).maps[i]? = some m) (he : m [] = none ∨ (Spec.Plain ops ∧ ∀ k, k ≠ [] → m k = none)) :
    Spec.Collision K s.db.log ∨ ∃ l : List (Bytes × Bytes), (∃ N, ∀ fuel, N ≤ fuel → tr.values fuel s.db = .ok l) ∧
      l.Pairwise (fun a b => a.1 < b.1) ∧ ∀ k v, (k, v) ∈ l ↔ m k = some v := by
  rcases collision_or K s.db.log with hc | hc
  · exact .inl hc
  have g := SysInv.new (K := K) (P := Spec.Plain ops) |>.run hfit (fun p => p) hrun hc
  obtain ⟨l, h1, h2⟩ := visits_pairs (g.db.reads hc) (g.tries.2 i tr m htr hm) he
  exact .inr ⟨l, h1.values rfl, h2⟩

/-- **C45 is false** with the empty key: if it is present together with another key, the first call of `next` panics. -/
theorem C45_empty_key_panics {ops : List Op} (hfit : ∀ op ∈ ops, Spec.Fits op) {s : Sys} {rs : List Ret}
    (hrun : (Sys.new false).run K ops = .ok (s, rs)) {i : Nat} {tr : Trie} {m : Spec.Map} (htr : s.tries[i]? = some tr)
    (hm : (Spec.run ops).maps[i]? = some m) (he : (m []).isSome) {k : Bytes} (hk : k ≠ []) (hkm : (m k).isSome) :
    Spec.Collision K s.db.log ∨
      ∃ N, ∀ fuel, N ≤ fuel → Iter.next s.db fuel (Iter.new tr) = .error (.panic "attempt to subtract with overflow") := by
  rcases collision_or K s.db.log with hc | hc
  · exact .inl hc
  have g := SysInv.new (K := K) (P := False) |>.run hfit (fun p => p.elim) hrun hc
  obtain ⟨_, t, hrep, hok, ag, _⟩ := g.tries.2 i tr m htr hm
  rw [← ag.get []] at he
  rw [← ag.get k] at hkm
  have hne : nibsOf k ≠ [] := fun e => hk (nibsOf_inj (b := []) e)
  cases t with
  | empty => cases he
  | leaf x v =>
    exfalso
    have h1 : x = [] := by
      by_contra h
      simp only [PT.get, show nibsOf [] = [] from rfl, if_neg h] at he
      cases he
    simp only [PT.get, h1, if_neg (Ne.symm hne)] at hkm
    cases hkm
  | ext q t =>
    exfalso
    have hq : q ≠ [] := hok.1
    have : lcp (nibsOf []) q ≠ q.length := by
      intro h
      obtain ⟨r, hr⟩ := lcp_eq_length.1 h
      exact hq (List.append_eq_nil_iff.1 hr).1
    simp only [PT.get, if_neg this] at he
    cases he
  | branch cs v =>
    cases v with
    | none => cases he
    | some v => exact .inr (root_value_panics (g.db.reads hc) hok hrep)

/-- The keys `[]` and `[1]` are entered and removed, the shorter one first, and the empty key is entered again. -/
def emptiedOps : List Op :=
  [.new, .insert 0 [] [5], .insert 0 [1] [6], .remove 0 [], .remove 0 [1], .insert 0 [] [7]]

theorem emptiedOps_root : ∃ cs, (handle false emptiedOps 0).root = .branch cs (some [7]) := by
  unfold handle result
  exact ⟨_, rfl⟩

theorem emptiedOps_next (fuel : Nat) : Iter.next (result false emptiedOps).1.db (fuel + 5) (Iter.new (handle false emptiedOps 0)) =
    .error (.panic "attempt to subtract with overflow") := by
  obtain ⟨cs, h⟩ := emptiedOps_root
  unfold Iter.new
  rw [h]
  rfl

/-- **C45 is false** for the empty key alone if a proper prefix of a present key was removed before: the map is `[] ↦ [7]`, and the first call of
`next` panics. The branch that is left behind by the removals holds the value. -/
theorem C45_lone_empty_key_false :
    (Sys.new false).run exK emptiedOps = .ok ((result false emptiedOps).1, (result false emptiedOps).2) ∧
      (∀ op ∈ emptiedOps, Spec.Fits op) ∧
      (result false emptiedOps).1.tries[0]? = some (handle false emptiedOps 0) ∧
      (∀ k, mapOf emptiedOps 0 k = if k = [] then some [7] else none) ∧
      ∀ fuel, Iter.next (result false emptiedOps).1.db (fuel + 5) (Iter.new (handle false emptiedOps 0)) =
        .error (.panic "attempt to subtract with overflow") := by
  refine ⟨result_eq (by decide +kernel), ?_, handle_eq (by decide +kernel), fun k => ?_, emptiedOps_next⟩
  · simp [emptiedOps, Spec.Fits]
  · simp only [mapOf, Spec.run, emptiedOps, Spec.step, Spec.State.update, List.foldl_cons, List.foldl_nil]
    simp [Spec.Map.set]
    by_cases h0 : k = []
    · simp [h0]
    · by_cases h1 : k = [1] <;> simp [h0, h1]

/-- Entries with a key that is a prefix of others, uncommitted changes over a committed trie. -/
def iterOps : List Op :=
  [.new, .insert 0 [0x12, 0x35] [7], .insert 0 [0x12, 0x34] (long 1), .insert 0 [0x12] [9], .commit 0, .insert 0 [0x92, 0x55] (long 2),
   .remove 0 [0x12, 0x35], .insert 0 [0x00] [3]]

theorem iterOps_run : (Sys.new false).run exK iterOps = .ok ((result false iterOps).1, (result false iterOps).2) := result_eq (by decide +kernel)

theorem iterOps_fits : ∀ op ∈ iterOps, Spec.Fits op := by
  intro op hop
  simp only [iterOps, List.mem_cons, List.not_mem_nil, or_false] at hop
  rcases hop with rfl | rfl | rfl | rfl | rfl | rfl | rfl | rfl <;> simp [Spec.Fits, long]

/-- The hypotheses of the theorem are met. -/
example : ∃ l : List (Bytes × Bytes), (∃ N, ∀ fuel, N ≤ fuel → (handle false iterOps 0).values fuel (result false iterOps).1.db = .ok l) ∧
    l.Pairwise (fun a b => a.1 < b.1) ∧ ∀ k v, (k, v) ∈ l ↔ mapOf iterOps 0 k = some v :=
  (C45_iterate_partial iterOps_fits iterOps_run (handle_eq (light := false) (ops := iterOps) (i := 0) (by decide +kernel))
    (mapOf_eq (ops := iterOps) (i := 0) (by decide +kernel)) (.inl (by decide +kernel))).resolve_left (by decide +kernel)

example : ((handle false iterOps 0).values 200 (result false iterOps).1.db).toOption
    = some [([0x00], [3]), ([0x12], [9]), ([0x12, 0x34], long 1), ([0x92, 0x55], long 2)] := by decide +kernel

/-- The second trie of the example has the empty key and others. -/
example : ∃ N, ∀ fuel, N ≤ fuel → Iter.next (result false exOps).1.db fuel (Iter.new (handle false exOps 1))
    = .error (.panic "attempt to subtract with overflow") :=
  (C45_empty_key_panics (k := [0x12]) exOps_fits exOps_run (handle_eq (light := false) (ops := exOps) (i := 1) (by decide +kernel))
    (mapOf_eq (ops := exOps) (i := 1) (by decide +kernel)) (by decide +kernel) (by simp) (by decide +kernel)).resolve_left exOps_noCollision

end Verif.Props
