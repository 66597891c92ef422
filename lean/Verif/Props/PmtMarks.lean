import Verif.Proofs.PmtMarks
import Verif.Props.PmtYellow
/-! Property C100: what removals of prefixes leave in a trie. -/

set_option autoImplicit false

namespace Verif.Props
open Verif Verif.Pmt PmtEx
open Verif.Pmt.PT (enc)
variable {K : Keccak}

/-- **C100.** After any program on an archive database, of every trie with the entries `J` there is a list `B` of marks, that is of keys that were
removed from it while they were proper prefixes of other keys (or marks), and at which the entries have not called for a branch since, such that
* `commit` returns the root hash of the Yellow Paper for `J` with additional branches at the keys of `B`, and
* `remove` of any key returns `true` exactly if the key is present, in `B`, or a point where entries or members of `B` part;
or two different stored byte strings have the same hash. -/
theorem C100_removals_leave_marked_branches {ops : List Op} (hfit : ∀ op ∈ ops, Spec.Fits op) {s : Sys} {rs : List Ret}
    (hrun : (Sys.new false).run K ops = .ok (s, rs)) {i : Nat} {tr : Trie} (htr : s.tries[i]? = some tr) {x : Spec.Marked}
    (hx : (Spec.mrun ops).maps[i]? = some x) {J : List (Bytes × Bytes)} (hJ : Yellow.Lists J x.map) :
    Spec.Collision K s.db.log ∨ ∃ B : List Bytes, (∀ k ∈ B, x.marks k) ∧
      (∃ tr' db', tr.commit K s.db = .ok (tr', db', .ok (Yellow.markedRoot K B J))) ∧
      ∀ k, ∃ tr' b, tr.remove s.db k = .ok (tr', .ok b) ∧ (b = true ↔ (x.map k).isSome ∨ k ∈ B ∨ Spec.Forks x.map B k) := by
  rcases collision_or K s.db.log with hc | hc
  · exact .inl hc
  have g := SysM.new (K := K) |>.run hfit hrun hc
  obtain ⟨h0, t, h1, h2, h3, h4⟩ := g.tries.2 i tr x htr hx
  obtain ⟨B, hB1, hB2⟩ := thin_marks h4
  refine .inr ⟨B, hB1, ?_, fun k => remove_reports (g.db.reads hc) h1 h2 h3 hB2 k⟩
  have hq : HandleQ K (fun u => u = t) s.db tr x.map := ⟨h0, t, h1, h2, h3, rfl⟩
  obtain ⟨a, b, u, e, _, _, _, _, _, _, rfl, _⟩ := Trie.commit_q g.db hq
  rw [Yellow.markedRoot_eq (K := K) hJ h3 h2 hB2] at e
  exact ⟨a, b, e⟩

/-- **C100**, for the past: every root hash that a `commit` has returned is that for the contents at that time, with additional branches at marks
of that time. -/
theorem C100_committed_roots {ops : List Op} (hfit : ∀ op ∈ ops, Spec.Fits op) {s : Sys} {rs : List Ret}
    (hrun : (Sys.new false).run K ops = .ok (s, rs)) {j : Nat} {h : H256} (hh : (rs.filterMap Spec.rootOf)[j]? = some h) {x : Spec.Marked}
    (hx : (Spec.mrun ops).snaps[j]? = some x) {J : List (Bytes × Bytes)} (hJ : Yellow.Lists J x.map) :
    Spec.Collision K s.db.log ∨ ∃ B : List Bytes, (∀ k ∈ B, x.marks k) ∧ h = Yellow.markedRoot K B J := by
  rcases collision_or K s.db.log with hc | hc
  · exact .inl hc
  have g := SysM.new (K := K) |>.run hfit hrun hc
  rw [show rs.filterMap Spec.rootOf = s.roots by rw [Sys.run_roots hrun]; simp [Sys.new]] at hh
  obtain ⟨t, e, _, h2, h3, h4⟩ := g.roots.2 j h x hh hx
  obtain ⟨B, hB1, hB2⟩ := thin_marks h4
  exact .inr ⟨B, hB1, e.trans (Yellow.markedRoot_eq hJ h3 h2 hB2)⟩

/-- **C100**: the marked maps are the maps of C35, with marks. -/
theorem C100_maps (ops : List Op) : (Spec.mrun ops).maps.map (fun x => x.map) = (Spec.run ops).maps ∧
    (Spec.mrun ops).snaps.map (fun x => x.map) = (Spec.run ops).snaps := mrun_maps ops

/-- **C100**: without marks, the root hash is that of the Yellow Paper. -/
theorem C100_unmarked_root (J : List (Bytes × Bytes)) : Yellow.markedRoot K [] J = Yellow.trieRoot K J := Yellow.markedRoot_nil J

/-- **C100**: a mark is a key whose removal was asked for. -/
theorem C100_marks_were_removed (ops : List Op) (x : Spec.Marked) (hx : x ∈ (Spec.mrun ops).maps ++ (Spec.mrun ops).snaps) (k : Bytes)
    (hk : x.marks k) : ∃ i, Op.remove i k ∈ ops := by
  have key : ∀ (ops : List Op) (σ : Spec.MState) (x : Spec.Marked),
      x ∈ (ops.foldl Spec.mstep σ).maps ++ (ops.foldl Spec.mstep σ).snaps → ∀ k, x.marks k →
      (∃ i, Op.remove i k ∈ ops) ∨ ∃ y ∈ σ.maps ++ σ.snaps, y.marks k := by
    intro ops
    induction ops with
    | nil => exact fun σ x hx k hk => .inr ⟨x, hx, hk⟩
    | cons op ops ih =>
      intro σ x hx k hk
      rcases ih _ x hx k hk with ⟨i, hi⟩ | ⟨y, hy, hk⟩
      · exact .inl ⟨i, by simp [hi]⟩
      rcases mark_step hy hk with h | ⟨i, _, _, rfl, _⟩
      · exact .inr h
      · exact .inl ⟨i, by simp⟩
  rcases key ops ⟨[], []⟩ x hx k hk with h | ⟨y, hy, _⟩
  · exact h
  · cases hy

/-- **C58**, for every trie without marks, whatever the program did to others. -/
theorem C58_unmarked_partial {ops : List Op} (hfit : ∀ op ∈ ops, Spec.Fits op) {s : Sys} {rs : List Ret}
    (hrun : (Sys.new false).run K ops = .ok (s, rs)) {i : Nat} {tr : Trie} (htr : s.tries[i]? = some tr) {x : Spec.Marked}
    (hx : (Spec.mrun ops).maps[i]? = some x) (hu : ∀ k, ¬ x.marks k) {J : List (Bytes × Bytes)} (hJ : Yellow.Lists J x.map) :
    Spec.Collision K s.db.log ∨ ∃ tr' db', tr.commit K s.db = .ok (tr', db', .ok (Yellow.trieRoot K J)) := by
  rcases C100_removals_leave_marked_branches hfit hrun htr hx hJ with h | ⟨B, h1, h2, _⟩
  · exact .inl h
  · have hB : B = [] := by
      rw [List.eq_nil_iff_forall_not_mem]
      exact fun k hk => hu k (h1 k hk)
    rw [hB, Yellow.markedRoot_nil] at h2
    exact .inr h2

/-- **C39**, for every two tries without marks: with the same contents they have the same root hash. -/
theorem C39_unmarked_partial {ops1 ops2 : List Op} (hfit1 : ∀ op ∈ ops1, Spec.Fits op) (hfit2 : ∀ op ∈ ops2, Spec.Fits op) {s1 s2 : Sys}
    {rs1 rs2 : List Ret} (hrun1 : (Sys.new false).run K ops1 = .ok (s1, rs1)) (hrun2 : (Sys.new false).run K ops2 = .ok (s2, rs2)) {i1 i2 : Nat}
    {tr1 tr2 : Trie} (htr1 : s1.tries[i1]? = some tr1) (htr2 : s2.tries[i2]? = some tr2) {x1 x2 : Spec.Marked}
    (hx1 : (Spec.mrun ops1).maps[i1]? = some x1) (hx2 : (Spec.mrun ops2).maps[i2]? = some x2) (hm : x1.map = x2.map)
    (hu1 : ∀ k, ¬ x1.marks k) (hu2 : ∀ k, ¬ x2.marks k) :
    Spec.Collision K s1.db.log ∨ Spec.Collision K s2.db.log ∨
      ∃ h a1 b1 a2 b2, tr1.commit K s1.db = .ok (a1, b1, .ok h) ∧ tr2.commit K s2.db = .ok (a2, b2, .ok h) := by
  have hm1 : (Spec.run ops1).maps[i1]? = some x1.map := by rw [← (mrun_maps ops1).1, List.getElem?_map, hx1]; rfl
  obtain ⟨J, hJ⟩ := C58_entries_exist ops1 i1 x1.map hm1
  rcases C58_unmarked_partial hfit1 hrun1 htr1 hx1 hu1 hJ with h | ⟨a1, b1, e1⟩
  · exact .inl h
  rcases C58_unmarked_partial hfit2 hrun2 htr2 hx2 hu2 (hm ▸ hJ) with h | ⟨a2, b2, e2⟩
  · exact .inr (.inl h)
  · exact .inr (.inr ⟨_, a1, b1, a2, b2, e1, e2⟩)

/-- **C100**: programs whose removals are plain (the key is absent, a proper prefix of no key present, or other entries part at it) have no marks. -/
theorem C100_plain_unmarked {ops : List Op} (hp : Spec.Plain ops) (x : Spec.Marked) (hx : x ∈ (Spec.mrun ops).maps ++ (Spec.mrun ops).snaps)
    (k : Bytes) : ¬ x.marks k := unmarked_of_plain hp x hx k

/-- **C100**: the entries call for no branch at a mark. -/
theorem C100_marks_not_needed (ops : List Op) (x : Spec.Marked) (hx : x ∈ (Spec.mrun ops).maps ++ (Spec.mrun ops).snaps) (k : Bytes)
    (hk : x.marks k) : ¬ Spec.Needed x.map k := by
  have key : ∀ (ops : List Op) (σ : Spec.MState), (∀ x ∈ σ.maps ++ σ.snaps, ∀ k, x.marks k → ¬ Spec.Needed x.map k) →
      ∀ x ∈ (ops.foldl Spec.mstep σ).maps ++ (ops.foldl Spec.mstep σ).snaps, ∀ k, x.marks k → ¬ Spec.Needed x.map k := by
    intro ops
    induction ops with
    | nil => exact fun σ h => h
    | cons op ops ih =>
      intro σ h
      refine ih _ fun y hy k hk => ?_
      rcases mem_mstep hy with hy | rfl | ⟨z, rfl⟩
      · exact h y hy k hk
      · exact hk.elim
      · exact hk.2
  exact key ops ⟨[], []⟩ (by simp) x hx k hk

/-- **C36**, exactly, for every trie without marks: `remove` returns `true` if the key is present or other entries part at it, and otherwise
`false`. -/
theorem C36_unmarked_partial {ops : List Op} (hfit : ∀ op ∈ ops, Spec.Fits op) {s : Sys} {rs : List Ret}
    (hrun : (Sys.new false).run K ops = .ok (s, rs)) {i : Nat} {tr : Trie} (htr : s.tries[i]? = some tr) {x : Spec.Marked}
    (hx : (Spec.mrun ops).maps[i]? = some x) (hu : ∀ k, ¬ x.marks k) (k : Bytes) :
    Spec.Collision K s.db.log ∨ ∃ tr' b, tr.remove s.db k = .ok (tr', .ok b) ∧ (b = true ↔ (x.map k).isSome ∨ Spec.Parts x.map k) := by
  have hm : (Spec.run ops).maps[i]? = some x.map := by rw [← (mrun_maps ops).1, List.getElem?_map, hx]; rfl
  obtain ⟨J, hJ⟩ := C58_entries_exist ops i x.map hm
  rcases C100_removals_leave_marked_branches hfit hrun htr hx hJ with h | ⟨B, h1, _, h3⟩
  · exact .inl h
  · have hB : B = [] := by
      rw [List.eq_nil_iff_forall_not_mem]
      exact fun k hk => hu k (h1 k hk)
    subst hB
    obtain ⟨tr', b, e, h⟩ := h3 k
    exact .inr ⟨tr', b, e, by rw [← forks_nil]; simpa using h⟩

/-- **C36**, exactly, for these programs. -/
theorem C36_remove_exact_partial {ops : List Op} (hfit : ∀ op ∈ ops, Spec.Fits op) (hp : Spec.Plain ops) {s : Sys} {rs : List Ret}
    (hrun : (Sys.new false).run K ops = .ok (s, rs)) {i : Nat} {tr : Trie} {m : Spec.Map} (htr : s.tries[i]? = some tr)
    (hm : (Spec.run ops).maps[i]? = some m) (k : Bytes) :
    Spec.Collision K s.db.log ∨ ∃ tr' b, tr.remove s.db k = .ok (tr', .ok b) ∧ (b = true ↔ (m k).isSome ∨ Spec.Parts m k) := by
  rw [← (mrun_maps ops).1, List.getElem?_map] at hm
  obtain ⟨x, hx, rfl⟩ := Option.map_eq_some_iff.1 hm
  exact C36_unmarked_partial hfit hrun htr hx (unmarked_of_plain hp x (List.mem_append_left _ (List.mem_of_getElem? hx))) k

/-! ### An example -/

/-- A key that is a prefix of another one is removed. -/
def markOps : List Op := [.new, .insert 0 [1] [9], .insert 0 [1, 0x20] (long 1), .remove 0 [1]]

theorem markOps_run : (Sys.new false).run exK markOps = .ok ((result false markOps).1, (result false markOps).2) := result_eq (by decide +kernel)

theorem markOps_fits : ∀ op ∈ markOps, Spec.Fits op := by
  intro op hop
  simp only [markOps, List.mem_cons, List.not_mem_nil, or_false] at hop
  rcases hop with rfl | rfl | rfl | rfl <;> simp [Spec.Fits, long]

/-- The trie of the example, with its marks. -/
def markTrie : Spec.Marked := ((Spec.mrun markOps).maps[0]?).getD ⟨fun _ => none, fun _ => False⟩

theorem markTrie_eq : (Spec.mrun markOps).maps[0]? = some markTrie := by rfl

theorem markTrie_map (k : Bytes) : markTrie.map k = if k = [1, 0x20] then some (long 1) else none := by
  simp only [markTrie, Spec.mrun, markOps, Spec.mstep, Spec.MState.update, Spec.Marked.remove, Spec.Marked.insert, Spec.Marked.tidy, List.foldl_cons, List.foldl_nil, List.nil_append,
    List.getElem?_cons_zero, List.set_cons_zero, Option.getD_some, show long 1 ≠ [] by decide, show ([9] : Bytes) ≠ [] by decide, if_false]
  by_cases h1 : k = [1] <;> by_cases h2 : k = [1, 0x20] <;> simp_all [Spec.Map.set]

theorem markTrie_marks (k : Bytes) : markTrie.marks k ↔ k = [1] := by
  simp only [markTrie, Spec.mrun, markOps, Spec.mstep, Spec.MState.update, Spec.Marked.remove, Spec.Marked.insert, Spec.Marked.tidy, List.foldl_cons, List.foldl_nil, List.nil_append,
    List.getElem?_cons_zero, List.set_cons_zero, Option.getD_some, show long 1 ≠ [] by decide, show ([9] : Bytes) ≠ [] by decide, if_false]
  constructor
  · rintro ⟨h | h, _⟩
    · exact h.1.1.elim
    · exact h.1
  · rintro rfl
    refine ⟨.inr ⟨rfl, rfl, [1, 0x20], ⟨[0x20], by simp, rfl⟩, .inl rfl⟩, ?_⟩
    rintro (⟨x, y, s, t, hxy, hs, ht⟩ | ⟨h, _⟩)
    · have key : ∀ {x : UInt8} {s : Bytes}, (markTrie.map ([1] ++ x :: s)).isSome → x = 0x20 := by
        intro x s h
        rw [markTrie_map] at h
        by_contra hn
        simp [hn] at h
      rw [key hs, key ht] at hxy
      exact hxy rfl
    · cases h

theorem markTrie_lists : Yellow.Lists [([1, 0x20], long 1)] markTrie.map := by
  refine ⟨by simp, fun k v => ?_⟩
  rw [markTrie_map]
  by_cases h : k = [1, 0x20] <;> simp_all [eq_comm]

/-- There is a branch at the removed key `[1]`: the root hash is that with the mark `[1]`, which is not that of the contents, and `remove` of the key,
which is not present any more, returns `true` again. -/
theorem C100_example : ((handle false markOps 0).commit exK (result false markOps).1.db).toOption.map (fun x => x.2.2.toOption)
      = some (some (Yellow.markedRoot exK [[1]] [([1, 0x20], long 1)])) ∧
    Yellow.markedRoot exK [[1]] [([1, 0x20], long 1)] ≠ Yellow.markedRoot exK [] [([1, 0x20], long 1)] ∧
    ((handle false markOps 0).remove (result false markOps).1.db [1]).toOption.map (fun x => x.2.toOption) = some (some true) := by
  refine ⟨by decide +kernel, by decide +kernel, by decide +kernel⟩

/-- The hypotheses of the theorem are met. -/
example : ∃ B : List Bytes, (∀ k ∈ B, k = [1]) ∧
    (∃ tr' db', (handle false markOps 0).commit exK (result false markOps).1.db
      = .ok (tr', db', .ok (Yellow.markedRoot exK B [([1, 0x20], long 1)]))) := by
  rcases C100_removals_leave_marked_branches markOps_fits markOps_run (i := 0) (tr := handle false markOps 0)
    (handle_eq (by decide +kernel)) markTrie_eq markTrie_lists with h | ⟨B, h1, h2, _⟩
  · exact absurd h (by decide +kernel)
  · exact ⟨B, fun k hk => (markTrie_marks k).1 (h1 k hk), h2⟩

/-- Another trie of a program that leaves marks in the first one: the second trie has none. -/
example : ∃ x, (Spec.mrun (markOps ++ [.new, .insert 1 [1] [9]])).maps[1]? = some x ∧ (∀ k, ¬ x.marks k) ∧ x.map [1] = some [9] :=
  ⟨_, rfl, fun _ h => h.1, rfl⟩

/-- The same calls, but the trie is committed and opened again before the removal. -/
def markReopenOps : List Op := [.new, .insert 0 [1] [9], .insert 0 [1, 0x20] (long 1), .commit 0, .openAt 0, .remove 1 [1]]

/-- **C100**: which marks have branches also depends on what is in memory. When the branch is read from the database on the way, it is dissolved
and the root hash is that of the contents. -/
theorem C100_depends_on_memory : mapOf markReopenOps 1 [1] = none ∧ mapOf markReopenOps 1 [1, 0x20] = some (long 1) ∧
    ((handle false markReopenOps 1).commit exK (result false markReopenOps).1.db).toOption.map (fun x => x.2.2.toOption)
      = some (some (Yellow.trieRoot exK [([1, 0x20], long 1)])) ∧
    ((handle false markReopenOps 1).commit exK (result false markReopenOps).1.db).toOption.map (fun x => x.2.2.toOption)
      ≠ ((handle false markOps 0).commit exK (result false markOps).1.db).toOption.map (fun x => x.2.2.toOption) := by
  refine ⟨by decide +kernel, by decide +kernel, by decide +kernel, by decide +kernel⟩

/-- Two entries part at the key `[1]` of `absentOps`, which is neither an entry nor a mark; this is the case of C36 in which `remove` of an absent key
returns `true` without any mark. -/
theorem absentOps_parts : Spec.Parts (mapOf absentOps 0) [1] := ⟨0x20, 0x30, [], [], by decide, by decide +kernel, by decide +kernel⟩

/-- C36 exactly, at this key. -/
example : ∃ tr', (handle false absentOps 0).remove (result false absentOps).1.db [1] = .ok (tr', .ok true) := by
  rcases C36_remove_exact_partial absentOps_fits absentOps_plain absentOps_run (i := 0) (tr := handle false absentOps 0)
    (handle_eq (by decide +kernel)) (mapOf_eq (ops := absentOps) (i := 0) (by decide +kernel)) [1] with h | ⟨tr', b, e, h⟩
  · exact absurd h (by decide +kernel)
  · refine ⟨tr', ?_⟩
    rw [h.2 (.inr absentOps_parts)] at e
    exact e

/-- The removed key is inserted again. -/
def remarkOps : List Op := markOps ++ [.insert 0 [1] [7]]

/-- **C100**: with that the mark is gone. -/
example : ∃ x, (Spec.mrun remarkOps).maps[0]? = some x ∧ x.map [1] = some [7] ∧ x.map [1, 0x20] = some (long 1) ∧ ∀ k, ¬ x.marks k := by
  have hx : (Spec.mrun remarkOps).maps[0]? = some (markTrie.insert [1] [7]) := rfl
  refine ⟨_, hx, rfl, ?_, fun k ⟨h1, h2⟩ => ?_⟩
  · show markTrie.map [1, 0x20] = _
    rw [markTrie_map, if_pos rfl]
  · rw [show k = [1] from (markTrie_marks k).1 h1] at h2
    refine h2 (.inr ⟨rfl, [1, 0x20], ⟨[0x20], by simp, rfl⟩, ?_⟩)
    show (markTrie.map [1, 0x20]).isSome
    rw [markTrie_map, if_pos rfl]; rfl

end Verif.Props
