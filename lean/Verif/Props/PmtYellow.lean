import Verif.Proofs.YellowPaper
import Verif.Props.PmtMap
/-! Property C58: the root hash of a trie is the one that Ethereum's Yellow Paper defines for its contents. -/

set_option autoImplicit false

namespace Verif.Props
open Verif Verif.Pmt PmtEx
open Verif.Pmt.PT (enc)
variable {K : Keccak}

/-- **C58**, without `remove`. Committing any trie after a program without `remove` on an archive database returns the root hash of the Yellow Paper
for the entries of the trie, or two different stored byte strings have the same hash. -/
theorem C58_insert_only {ops : List Op} (hfit : ∀ op ∈ ops, Spec.Fits op) (h : ∀ op ∈ ops, Spec.NoRemove op) {s : Sys} {rs : List Ret}
    (hrun : (Sys.new false).run K ops = .ok (s, rs)) {i : Nat} {tr : Trie} (htr : s.tries[i]? = some tr) {m : Spec.Map}
    (hm : (Spec.run ops).maps[i]? = some m) {J : List (Bytes × Bytes)} (hJ : Yellow.Lists J m) :
    Spec.Collision K s.db.log ∨ ∃ tr' db', tr.commit K s.db = .ok (tr', db', .ok (Yellow.trieRoot K J)) := by
  rcases collision_or K s.db.log with hc | hc
  · exact .inl hc
  have g := SysInv.new (K := K) (P := True) |>.run hfit (fun _ => plainFrom_of_noRemove h _) hrun hc
  obtain ⟨a, b, t, e, _, _, _, _, hok, ag, c, _⟩ := Trie.commit_ok g.db (g.tries.2 i tr _ htr hm)
  rw [Yellow.root_eq (K := K) hJ ag (c trivial) hok] at e
  exact .inr ⟨a, b, e⟩

/-- **C58 (partial).** The same with removals of keys that are absent, proper prefixes of no key then present, or keys at which other entries
part. Missing: other removals, for which the claim
is false (`C58_removed_prefix_false`). -/
theorem C58_yellow_paper_root_partial {ops : List Op} (hfit : ∀ op ∈ ops, Spec.Fits op) (hp : Spec.Plain ops) {s : Sys} {rs : List Ret}
    (hrun : (Sys.new false).run K ops = .ok (s, rs)) {i : Nat} {tr : Trie} (htr : s.tries[i]? = some tr) {m : Spec.Map}
    (hm : (Spec.run ops).maps[i]? = some m) {J : List (Bytes × Bytes)} (hJ : Yellow.Lists J m) :
    Spec.Collision K s.db.log ∨ ∃ tr' db', tr.commit K s.db = .ok (tr', db', .ok (Yellow.trieRoot K J)) := by
  rcases collision_or K s.db.log with hc | hc
  · exact .inl hc
  have g := SysInv.new (K := K) (P := True) |>.run hfit (fun _ => hp) hrun hc
  obtain ⟨a, b, t, e, _, _, _, _, hok, ag, c, _⟩ := Trie.commit_ok g.db (g.tries.2 i tr _ htr hm)
  rw [Yellow.root_eq (K := K) hJ ag (c trivial) hok] at e
  exact .inr ⟨a, b, e⟩

/-- The maps of all tries of all programs have lists of entries, so C58 speaks of all of them. -/
theorem C58_entries_exist (ops : List Op) (i : Nat) (m : Spec.Map) (hm : (Spec.run ops).maps[i]? = some m) : ∃ J, Yellow.Lists J m :=
  (Yellow.lists_run ops).1 m (List.mem_of_getElem? hm)

/-- **C58**, for the past: every root hash that a `commit` of such a program has returned is that of the Yellow Paper for the contents at that time. -/
theorem C58_committed_roots_partial {ops : List Op} (hfit : ∀ op ∈ ops, Spec.Fits op) (hp : Spec.Plain ops) {s : Sys} {rs : List Ret}
    (hrun : (Sys.new false).run K ops = .ok (s, rs)) {j : Nat} {h : H256} (hh : (rs.filterMap Spec.rootOf)[j]? = some h) {m : Spec.Map}
    (hm : (Spec.run ops).snaps[j]? = some m) {J : List (Bytes × Bytes)} (hJ : Yellow.Lists J m) :
    Spec.Collision K s.db.log ∨ h = Yellow.trieRoot K J := by
  rcases collision_or K s.db.log with hc | hc
  · exact .inl hc
  have g := SysInv.new (K := K) (P := True) |>.run hfit (fun _ => hp) hrun hc
  rw [show rs.filterMap Spec.rootOf = s.roots by rw [Sys.run_roots hrun]; simp [Sys.new]] at hh
  obtain ⟨t, e, _, hok, ag, c⟩ := g.roots.2 j h m hh hm
  exact .inr (e.trans (Yellow.root_eq hJ ag (c trivial) hok))

/-- **C58**, RLP: the encoders of the model (of byte strings and of lists of encoded items) are those of the Yellow Paper, for everything shorter
than `2^64` bytes. -/
theorem C58_rlp (b : Bytes) (l : List Yellow.Item) (hb : b.length < 2 ^ 64) (hl : (l.map Yellow.rlp).flatten.length < 2 ^ 64) :
    Rlp.encodeData b = Yellow.rlp (.data b) ∧ Rlp.encodeList (l.map Yellow.rlp) = Yellow.rlp (.list l) :=
  ⟨Yellow.data_eq b (by rw [pow_256]; exact hb), Yellow.list_eq l (by rw [pow_256]; exact hl)⟩

/-- **C58**, paths: the compact encoding of digits (with the terminator for leaves) is the hex-prefix encoding of the Yellow Paper. Missing: the empty
path of an extension, for which `encode_compact` panics (`C46_empty_path_panics`); the trie has no such extensions. -/
theorem C58_hex_prefix_partial (l : List (Fin 16)) (leaf : Bool) (h : leaf = true ∨ l ≠ []) :
    Nibbles.encodeCompact (l.map Fin.val ++ if leaf then [16] else []) = .ok (Yellow.hp l leaf) := by
  cases leaf with
  | true => rw [← Yellow.hp_eq]; exact encodeCompact_leaf l
  | false =>
    rw [← Yellow.hp_eq]
    have := encodeCompact_ext (h.resolve_left (by simp))
    simpa [toNibs] using this

/-- Test vectors of the Yellow Paper's encodings: `"dog"`, `["cat", "dog"]`, the empty string, 15, 1024, `[[], [[]], [[], [[]]]]`; 56 bytes;
hex-prefix of 1 2 3 4 5 without and 0 f 1 c b 8 with terminator. -/
example : Yellow.rlp (.data [0x64, 0x6f, 0x67]) = [0x83, 0x64, 0x6f, 0x67] ∧
    Yellow.rlp (.list [.data [0x63, 0x61, 0x74], .data [0x64, 0x6f, 0x67]]) = [0xc8, 0x83, 0x63, 0x61, 0x74, 0x83, 0x64, 0x6f, 0x67] ∧
    Yellow.rlp (.data []) = [0x80] ∧ Yellow.rlp (.data [0x0f]) = [0x0f] ∧ Yellow.rlp (.data [0x04, 0x00]) = [0x82, 0x04, 0x00] ∧
    Yellow.rlp (.list [.list [], .list [.list []], .list [.list [], .list [.list []]]]) = [0xc7, 0xc0, 0xc1, 0xc0, 0xc3, 0xc0, 0xc1, 0xc0] ∧
    Yellow.hp [1, 2, 3, 4, 5] false = [0x11, 0x23, 0x45] ∧ Yellow.hp [0, 0xf, 1, 0xc, 0xb, 8] true = [0x20, 0x0f, 0x1c, 0xb8] := by
  refine ⟨by decide +kernel, by decide +kernel, by decide +kernel, by decide +kernel, by decide +kernel, by decide +kernel, by decide +kernel,
    by decide +kernel⟩

example : (Yellow.rlp (.data (List.replicate 1024 7))).take 4 = [0xb9, 0x04, 0x00, 7] := by decide +kernel

/-- The entries of a program that removes keys. -/
def yellowOps : List Op :=
  [.new, .insert 0 [0x12] [9], .insert 0 [0x12, 0x34] (long 1), .insert 0 [0x55] [7], .commit 0, .insert 0 [0x12, 0x35] [8],
   .remove 0 [0x55], .remove 0 [0x77], .insert 0 [0x12, 0x34] (long 3)]

def yellowEntries : List (Bytes × Bytes) := [([0x12, 0x35], [8]), ([0x12, 0x34], long 3), ([0x12], [9])]

theorem yellowOps_run : (Sys.new false).run exK yellowOps = .ok ((result false yellowOps).1, (result false yellowOps).2) :=
  result_eq (by decide +kernel)

theorem yellowOps_fits : ∀ op ∈ yellowOps, Spec.Fits op := by
  intro op hop
  simp only [yellowOps, List.mem_cons, List.not_mem_nil, or_false] at hop
  rcases hop with rfl | rfl | rfl | rfl | rfl | rfl | rfl | rfl | rfl <;> simp [Spec.Fits, long]

theorem yellowOps_map (k : Bytes) : mapOf yellowOps 0 k =
    if k = [0x12] then some [9] else if k = [0x12, 0x34] then some (long 3) else if k = [0x12, 0x35] then some [8] else none := by
  simp only [mapOf, Spec.run, yellowOps, Spec.step, Spec.State.update, List.foldl_cons, List.foldl_nil, List.nil_append,
    List.getElem?_cons_zero, List.set_cons_zero, Option.getD_some, show long 1 ≠ [] by decide, show long 3 ≠ [] by decide, if_false]
  by_cases h1 : k = [0x12] <;> by_cases h2 : k = [0x12, 0x34] <;> by_cases h3 : k = [0x12, 0x35] <;> by_cases h4 : k = [0x55] <;>
    by_cases h5 : k = [0x77] <;> simp_all [Spec.Map.set]

theorem yellowOps_lists : Yellow.Lists yellowEntries (mapOf yellowOps 0) := by
  refine ⟨by decide +kernel, fun k v => ?_⟩
  rw [yellowOps_map]
  simp only [yellowEntries, List.mem_cons, Prod.mk.injEq, List.not_mem_nil, or_false]
  by_cases h1 : k = [0x12] <;> by_cases h2 : k = [0x12, 0x34] <;> by_cases h3 : k = [0x12, 0x35] <;> simp_all [eq_comm]

theorem yellowOps_plain : Spec.Plain yellowOps := by
  refine ⟨trivial, trivial, trivial, trivial, trivial, trivial, ?_, ?_, trivial, trivial⟩
  · refine fun m hm => .inr (.inl fun k hk => ?_)
    cases Option.some.inj hm
    obtain ⟨x, hx, rfl⟩ := hk
    simp [Spec.Map.set, hx, show long 1 ≠ [] by decide]
  · refine fun m hm => .inr (.inl fun k hk => ?_)
    cases Option.some.inj hm
    obtain ⟨x, hx, rfl⟩ := hk
    simp [Spec.Map.set, hx, show long 1 ≠ [] by decide]

/-- The hypotheses of the partial theorem are met, and there is no collision. -/
example : ∃ tr' db', (handle false yellowOps 0).commit exK (result false yellowOps).1.db
    = .ok (tr', db', .ok (Yellow.trieRoot exK yellowEntries)) := by
  rcases C58_yellow_paper_root_partial yellowOps_fits yellowOps_plain yellowOps_run (handle_eq (by decide +kernel))
    (mapOf_eq (by decide +kernel)) yellowOps_lists with h | h
  · exact absurd h (by decide +kernel)
  · exact h

/-- **C58 is false** for other removals: after inserting `[1]` and `[1, 2]` and removing `[1]` the root hash is not that of the only entry. -/
theorem C58_removed_prefix_false :
    Yellow.Lists [([1, 2], [6])] (mapOf [.new, .insert 0 [1] [5], .insert 0 [1, 2] [6], .remove 0 [1]] 0) ∧
    ¬ Spec.Collision exK (result false [.new, .insert 0 [1] [5], .insert 0 [1, 2] [6], .remove 0 [1]]).1.db.log ∧
    (rootAfter [.new, .insert 0 [1] [5], .insert 0 [1, 2] [6], .remove 0 [1], .commit 0]).isSome ∧
    rootAfter [.new, .insert 0 [1] [5], .insert 0 [1, 2] [6], .remove 0 [1], .commit 0] ≠ some (Yellow.trieRoot exK [([1, 2], [6])]) := by
  refine ⟨⟨by decide +kernel, fun k v => ?_⟩, by decide +kernel, by decide +kernel, by decide +kernel⟩
  simp only [mapOf, Spec.run, Spec.step, Spec.State.update, List.foldl_cons, List.foldl_nil, List.nil_append,
    List.getElem?_cons_zero, List.set_cons_zero, Option.getD_some]
  by_cases h1 : k = [1] <;> by_cases h2 : k = [1, 2] <;> simp_all [Spec.Map.set, eq_comm]

end Verif.Props
