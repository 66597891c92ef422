import Verif.Props.PmtExamples
/-! Properties C35 to C40: tries over an archive database behave as maps. -/

set_option autoImplicit false

namespace Verif.Props
open Verif Verif.Pmt PmtEx
open Verif.Pmt.PT (enc)
variable {K : Keccak}

/-- **C35.** After any program on a new archive database (several tries, views of commits, inserts, removes, commits and proofs, in any order),
every trie gives for every key the value of the map it stands for, or two different stored byte strings have the same hash. -/
theorem C35_trie_is_map {ops : List Op} (hfit : ∀ op ∈ ops, Spec.Fits op) {s : Sys} {rs : List Ret}
    (hrun : (Sys.new false).run K ops = .ok (s, rs)) :
    Spec.Collision K s.db.log ∨ (s.tries.length = (Spec.run ops).maps.length ∧
      ∀ (i : Nat) (tr : Trie) (m : Spec.Map), s.tries[i]? = some tr → (Spec.run ops).maps[i]? = some m →
        ∀ k, tr.get s.db k = .ok (m k) ∧ tr.contains s.db k = .ok (m k).isSome) := by
  rcases collision_or K s.db.log with hc | hc
  · exact .inl hc
  · have h := SysInv.new (K := K) (P := False) |>.run hfit (fun p => p.elim) hrun hc
    refine .inr ⟨h.tries.1, fun i tr m htr hm k => ?_⟩
    have hi := h.tries.2 i tr m htr hm
    exact ⟨Trie.get_ok (h.db.reads hc) hi k, Trie.contains_ok (h.db.reads hc) hi k⟩

/-- **C35.** The calls of a program without `get_proof` do not fail (except `insert` of an empty value), and `remove` returns `true` if the key is
present; or else after some of the calls two different stored byte strings have the same hash. -/
theorem C35_calls_succeed {ops : List Op} (hfit : ∀ op ∈ ops, Spec.Fits op) (hpf : ∀ op ∈ ops, Spec.NoProof op) :
    (∃ s rs, (Sys.new false).run K ops = .ok (s, rs) ∧ Spec.AnswersFrom ⟨[], []⟩ ops rs) ∨
      ∃ pre s rs, pre <+: ops ∧ (Sys.new false).run K pre = .ok (s, rs) ∧ Spec.Collision K s.db.log := by
  rcases (SysInv.new (K := K) (P := False)).total hfit hpf (fun a ha => by cases ha) with h | ⟨pre, s, rs, h1, h2, h3⟩
  · exact .inl h
  · exact .inr ⟨pre, s, rs, h1, h2, not_noClash h3⟩

/-- What the maps of the example are. -/
example : [mapOf exOps 0 [0x12, 0x34], mapOf exOps 0 [0x12, 0x35], mapOf exOps 0 [0x12], mapOf exOps 0 []] = [some [1], none, some [9], none] ∧
    [mapOf exOps 1 [0x12, 0x34], mapOf exOps 1 [0x12, 0x35], mapOf exOps 1 [], mapOf exOps 1 [0x33]]
      = [some (long 1), some [7], some [5], none] := ⟨by decide +kernel, by decide +kernel⟩

/-- The example has no collision, so C35 says what its tries contain. -/
example : (handle false exOps 1).get (result false exOps).1.db [0x12, 0x34] = .ok (some (long 1)) := by
  rcases C35_trie_is_map exOps_fits exOps_run with h | ⟨_, h⟩
  · exact absurd h exOps_noCollision
  · rw [(h 1 _ _ (handle_eq (by decide +kernel)) (mapOf_eq (by decide +kernel)) [0x12, 0x34]).1,
      show mapOf exOps 1 [0x12, 0x34] = some (long 1) by decide +kernel]

/-- **C36 (half).** `remove` of a present key returns `true`, after any program on an archive database. -/
theorem C36_remove_present_partial {ops : List Op} (hfit : ∀ op ∈ ops, Spec.Fits op) {s : Sys} {rs : List Ret}
    (hrun : (Sys.new false).run K ops = .ok (s, rs)) {i : Nat} {tr : Trie} {m : Spec.Map} (htr : s.tries[i]? = some tr)
    (hm : (Spec.run ops).maps[i]? = some m) (k : Bytes) (hk : (m k).isSome) :
    Spec.Collision K s.db.log ∨ ∃ tr', tr.remove s.db k = .ok (tr', .ok true) := by
  rcases collision_or K s.db.log with hc | hc
  · exact .inl hc
  · have h := SysInv.new (K := K) (P := False) |>.run hfit (fun p => p.elim) hrun hc
    obtain ⟨tr', b, e, _, hb, _⟩ := Trie.remove_ok (h.db.reads hc) (h.tries.2 i tr m htr hm) k (fun p => p.elim)
    rw [hb hk] at e
    exact .inr ⟨tr', e⟩

/-- **C36 (partial).** `remove` returns whether the key is present, if no present key is a proper extension of it and earlier removals were of keys that
were absent, proper prefixes of no key then present, or keys at which other entries part. Missing: removals of a key of which a present key is a proper extension, for which the claim is false
(`C36_absent_reported_removed`). -/
theorem C36_remove_reports_partial {ops : List Op} (hfit : ∀ op ∈ ops, Spec.Fits op) (hplain : Spec.Plain ops) {s : Sys} {rs : List Ret}
    (hrun : (Sys.new false).run K ops = .ok (s, rs)) {i : Nat} {tr : Trie} {m : Spec.Map} (htr : s.tries[i]? = some tr)
    (hm : (Spec.run ops).maps[i]? = some m) (k : Bytes) (hk : ∀ k', Spec.ProperPrefix k k' → m k' = none) :
    Spec.Collision K s.db.log ∨ ∃ tr', tr.remove s.db k = .ok (tr', .ok (m k).isSome) := by
  rcases collision_or K s.db.log with hc | hc
  · exact .inl hc
  · have h := SysInv.new (K := K) (P := True) |>.run hfit (fun _ => hplain) hrun hc
    obtain ⟨tr', b, e, _, _, hb⟩ := Trie.remove_ok (h.db.reads hc) (h.tries.2 i tr m htr hm) k (fun _ => .inr (.inl hk))
    rw [hb trivial hk] at e
    exact .inr ⟨tr', e⟩

/-- Two keys with the common beginning `[1]`, which is not a key. -/
def absentOps : List Op := [.new, .insert 0 [1, 0x20] [5], .insert 0 [1, 0x30] [6]]

theorem absentOps_run : (Sys.new false).run exK absentOps = .ok ((result false absentOps).1, (result false absentOps).2) := result_eq (by decide +kernel)

/-- **C36 is false**: `remove` of the absent key `[1]` returns `true`. -/
theorem C36_absent_reported_removed :
    (mapOf absentOps 0) [1] = none ∧
      ((handle false absentOps 0).remove (result false absentOps).1.db [1]).toOption.map (fun x => x.2.toOption) = some (some true) := by
  refine ⟨by decide +kernel, by decide +kernel⟩

theorem absentOps_fits : ∀ op ∈ absentOps, Spec.Fits op := by
  intro op hop
  simp only [absentOps, List.mem_cons, List.not_mem_nil, or_false] at hop
  rcases hop with rfl | rfl | rfl <;> simp [Spec.Fits]

theorem absentOps_plain : Spec.Plain absentOps := plainFrom_of_noRemove (by
  intro op hop
  simp only [absentOps, List.mem_cons, List.not_mem_nil, or_false] at hop
  rcases hop with rfl | rfl | rfl <;> trivial) _

/-- The hypotheses of the theorem are met at the key `[1, 0x20]`. -/
example : ∃ tr', (handle false absentOps 0).remove (result false absentOps).1.db [1, 0x20] = .ok (tr', .ok true) := by
  rcases C36_remove_reports_partial (m := (mapOf absentOps 0)) absentOps_fits absentOps_plain absentOps_run
    (i := 0) (tr := handle false absentOps 0) (handle_eq (light := false) (ops := absentOps) (i := 0) (by decide +kernel))
    (mapOf_eq (ops := absentOps) (i := 0) (by decide +kernel)) [1, 0x20] (by
      rintro k' ⟨x, hx, rfl⟩
      simp [mapOf, Spec.run, absentOps, Spec.step, Spec.State.update, Spec.Map.set, hx]) with h | h
  · exact absurd h (by decide +kernel)
  · exact h

/-- **C37.** `insert` of an empty value returns an error and changes neither the trie nor (being a reader) the database. -/
theorem C37_empty_value_rejected (tr : Trie) (db : Db) (k : Bytes) : ∃ msg, tr.insert db k [] = .ok (tr, some msg) := ⟨_, rfl⟩

/-- **C37.** An insertion of an empty value into a program changes nothing: the calls after it return the same as without it. -/
theorem C37_empty_value_no_effect {s : Sys} {i : Nat} {tr : Trie} (htr : s.tries[i]? = some tr) (k : Bytes) (ops : List Op) :
    ∃ msg, s.run K (.insert i k [] :: ops) = (s.run K ops).map (fun x => (x.1, .failed msg :: x.2)) := by
  obtain ⟨msg, e⟩ := C37_empty_value_rejected tr s.db k
  refine ⟨msg, ?_⟩
  have hs : s.put i tr = s := by
    unfold Sys.put
    have : s.tries.set i tr = s.tries := by
      apply List.ext_getElem?
      intro j
      rw [List.getElem?_set]
      split
      · next h =>
        subst h
        rw [if_pos (List.getElem?_eq_some_iff.1 htr).1, htr]
      · rfl
    rw [this]
  conv => lhs; unfold Sys.run
  simp only [Sys.step, htr, Sys.insert, e, hs]
  cases s.run K ops <;> rfl

example : (result false exOps).1.tries[1]? = some (handle false exOps 1) := handle_eq (by decide +kernel)

/-- Roots of two tries, in the same or in different programs, that stand for the same map. -/
theorem commit_agrees {P : Prop} (hp : P) {ops1 ops2 : List Op} (hfit1 : ∀ op ∈ ops1, Spec.Fits op) (hfit2 : ∀ op ∈ ops2, Spec.Fits op)
    (h1 : P → Spec.Plain ops1) (h2 : P → Spec.Plain ops2) {s1 s2 : Sys} {rs1 rs2 : List Ret}
    (hrun1 : (Sys.new false).run K ops1 = .ok (s1, rs1)) (hrun2 : (Sys.new false).run K ops2 = .ok (s2, rs2)) {i1 i2 : Nat}
    {tr1 tr2 : Trie} (htr1 : s1.tries[i1]? = some tr1) (htr2 : s2.tries[i2]? = some tr2) {m : Spec.Map}
    (hm1 : (Spec.run ops1).maps[i1]? = some m) (hm2 : (Spec.run ops2).maps[i2]? = some m) :
    Spec.Collision K s1.db.log ∨ Spec.Collision K s2.db.log ∨
      ∃ h a1 b1 a2 b2, tr1.commit K s1.db = .ok (a1, b1, .ok h) ∧ tr2.commit K s2.db = .ok (a2, b2, .ok h) := by
  rcases collision_or K s1.db.log with hc1 | hc1
  · exact .inl hc1
  rcases collision_or K s2.db.log with hc2 | hc2
  · exact .inr (.inl hc2)
  have g1 := SysInv.new (K := K) (P := P) |>.run hfit1 h1 hrun1 hc1
  have g2 := SysInv.new (K := K) (P := P) |>.run hfit2 h2 hrun2 hc2
  obtain ⟨a1, b1, t1, e1, _, _, _, _, _, ag1, c1, _⟩ := Trie.commit_ok g1.db (g1.tries.2 i1 tr1 m htr1 hm1)
  obtain ⟨a2, b2, t2, e2, _, _, _, _, _, ag2, c2, _⟩ := Trie.commit_ok g2.db (g2.tries.2 i2 tr2 m htr2 hm2)
  have : t1 = t2 := ag1.unique ag2 (c1 hp) (c2 hp)
  subst this
  exact .inr (.inr ⟨_, a1, b1, a2, b2, e1, e2⟩)

/-- **C38.** Two tries (of the same or of different programs without `remove`) that stand for the same map give the same root hash. -/
theorem C38_insertion_order {ops1 ops2 : List Op} (hfit1 : ∀ op ∈ ops1, Spec.Fits op) (hfit2 : ∀ op ∈ ops2, Spec.Fits op)
    (h1 : ∀ op ∈ ops1, Spec.NoRemove op) (h2 : ∀ op ∈ ops2, Spec.NoRemove op) {s1 s2 : Sys} {rs1 rs2 : List Ret}
    (hrun1 : (Sys.new false).run K ops1 = .ok (s1, rs1)) (hrun2 : (Sys.new false).run K ops2 = .ok (s2, rs2)) {i1 i2 : Nat}
    {tr1 tr2 : Trie} (htr1 : s1.tries[i1]? = some tr1) (htr2 : s2.tries[i2]? = some tr2) {m : Spec.Map}
    (hm1 : (Spec.run ops1).maps[i1]? = some m) (hm2 : (Spec.run ops2).maps[i2]? = some m) :
    Spec.Collision K s1.db.log ∨ Spec.Collision K s2.db.log ∨
      ∃ h a1 b1 a2 b2, tr1.commit K s1.db = .ok (a1, b1, .ok h) ∧ tr2.commit K s2.db = .ok (a2, b2, .ok h) :=
  commit_agrees trivial hfit1 hfit2 (fun _ => plainFrom_of_noRemove h1 _) (fun _ => plainFrom_of_noRemove h2 _) hrun1 hrun2 htr1 htr2 hm1 hm2

/-- **C39 (partial).** Two tries (of the same or of different programs) that stand for the same map give the same root hash, if all removals are of keys
that are absent, proper prefixes of no key then present, or keys at which other entries part. Missing: other removals, for which the claim is false
(`C39_contents_do_not_determine_root`, `C39_emptied_trie_has_other_root`). -/
theorem C39_contents_partial {ops1 ops2 : List Op} (hfit1 : ∀ op ∈ ops1, Spec.Fits op) (hfit2 : ∀ op ∈ ops2, Spec.Fits op)
    (h1 : Spec.Plain ops1) (h2 : Spec.Plain ops2) {s1 s2 : Sys} {rs1 rs2 : List Ret}
    (hrun1 : (Sys.new false).run K ops1 = .ok (s1, rs1)) (hrun2 : (Sys.new false).run K ops2 = .ok (s2, rs2)) {i1 i2 : Nat}
    {tr1 tr2 : Trie} (htr1 : s1.tries[i1]? = some tr1) (htr2 : s2.tries[i2]? = some tr2) {m : Spec.Map}
    (hm1 : (Spec.run ops1).maps[i1]? = some m) (hm2 : (Spec.run ops2).maps[i2]? = some m) :
    Spec.Collision K s1.db.log ∨ Spec.Collision K s2.db.log ∨
      ∃ h a1 b1 a2 b2, tr1.commit K s1.db = .ok (a1, b1, .ok h) ∧ tr2.commit K s2.db = .ok (a2, b2, .ok h) :=
  commit_agrees trivial hfit1 hfit2 (fun _ => h1) (fun _ => h2) hrun1 hrun2 htr1 htr2 hm1 hm2

/-- **C39 (partial).** In such programs, a trie without entries has the root hash of a new trie. -/
theorem C39_empty_partial {ops : List Op} (hfit : ∀ op ∈ ops, Spec.Fits op) (hp : Spec.Plain ops) {s : Sys} {rs : List Ret}
    (hrun : (Sys.new false).run K ops = .ok (s, rs)) {i : Nat} {tr : Trie} (htr : s.tries[i]? = some tr)
    (hm : (Spec.run ops).maps[i]? = some (fun _ => none)) :
    Spec.Collision K s.db.log ∨ ∃ tr' db', tr.commit K s.db = .ok (tr', db', .ok (Trie.new K).rootHash) := by
  rcases collision_or K s.db.log with hc | hc
  · exact .inl hc
  have g := SysInv.new (K := K) (P := True) |>.run hfit (fun _ => hp) hrun hc
  obtain ⟨a, b, t, e, _, _, _, _, _, ag, c, _⟩ := Trie.commit_ok g.db (g.tries.2 i tr _ htr hm)
  have : t = .empty := ag.unique Agrees.empty (c trivial) trivial
  subst this
  exact .inr ⟨a, b, e⟩

/-- The keys of the example in another order, an overwritten value and a removed key. -/
def orderA : List Op := [.new, .insert 0 [0x12] [9], .insert 0 [0x12, 0x34] (long 1), .insert 0 [0x55] [7], .commit 0, .insert 0 [0x12, 0x35] [8]]
def orderB : List Op :=
  [.new, .insert 0 [0x55] [1], .insert 0 [0x12, 0x35] [8], .insert 0 [0x12, 0x34] (long 1), .insert 0 [0x12] [9], .insert 0 [0x55] [7]]

/-- The hypotheses of C38 are met, and the two maps are the same. -/
example : (∀ op ∈ orderA, Spec.NoRemove op) ∧ (∀ op ∈ orderB, Spec.NoRemove op) ∧
    (∀ k, mapOf orderA 0 k = mapOf orderB 0 k) ∧
    ((Sys.new false).run exK orderA).toOption.isSome ∧ ((Sys.new false).run exK orderB).toOption.isSome := by
  refine ⟨?_, ?_, ?_, by decide +kernel, by decide +kernel⟩
  · intro op hop
    simp only [orderA, List.mem_cons, List.not_mem_nil, or_false] at hop
    rcases hop with rfl | rfl | rfl | rfl | rfl | rfl <;> trivial
  · intro op hop
    simp only [orderB, List.mem_cons, List.not_mem_nil, or_false] at hop
    rcases hop with rfl | rfl | rfl | rfl | rfl | rfl <;> trivial
  · intro k
    simp only [mapOf, Spec.run, orderA, orderB, Spec.step, Spec.State.update, List.foldl_cons, List.foldl_nil, List.nil_append,
      List.getElem?_cons_zero, List.set_cons_zero, Option.getD_some, show long 1 ≠ [] by decide, if_false]
    by_cases h1 : k = [0x12] <;> by_cases h2 : k = [0x12, 0x34] <;> by_cases h3 : k = [0x12, 0x35] <;> by_cases h4 : k = [0x55] <;>
      simp_all [Spec.Map.set]

/-- The root hash a trie of a state commits to. -/
def rootAfter (ops : List Op) : Option H256 := (result false ops).1.roots[0]?

/-- **C39 is false**: inserting `[1]` and `[1, 2]` and removing `[1]` gives another root hash than inserting `[1, 2]`. -/
theorem C39_contents_do_not_determine_root :
    (∀ k, mapOf [.new, .insert 0 [1] [5], .insert 0 [1, 2] [6], .remove 0 [1]] 0 k = mapOf [.new, .insert 0 [1, 2] [6]] 0 k) ∧
    (rootAfter [.new, .insert 0 [1] [5], .insert 0 [1, 2] [6], .remove 0 [1], .commit 0]).isSome ∧
    rootAfter [.new, .insert 0 [1] [5], .insert 0 [1, 2] [6], .remove 0 [1], .commit 0] ≠ rootAfter [.new, .insert 0 [1, 2] [6], .commit 0] := by
  refine ⟨?_, by decide +kernel, by decide +kernel⟩
  intro k
  simp only [mapOf, Spec.run, Spec.step, Spec.State.update, List.foldl_cons, List.foldl_nil, List.nil_append,
    List.getElem?_cons_zero, List.set_cons_zero, Option.getD_some]
  by_cases h1 : k = [1] <;> by_cases h2 : k = [1, 2] <;> simp_all [Spec.Map.set]

/-- **C39 is false**: a trie from which everything has been removed has not the root hash of the empty trie. -/
theorem C39_emptied_trie_has_other_root :
    (∀ k, mapOf [.new, .insert 0 [1] [5], .insert 0 [1, 2] [6], .remove 0 [1], .remove 0 [1, 2]] 0 k = none) ∧
    (rootAfter [.new, .insert 0 [1] [5], .insert 0 [1, 2] [6], .remove 0 [1], .remove 0 [1, 2], .commit 0]).isSome ∧
    rootAfter [.new, .insert 0 [1] [5], .insert 0 [1, 2] [6], .remove 0 [1], .remove 0 [1, 2], .commit 0] ≠ some (Trie.new exK).rootHash := by
  refine ⟨?_, by decide +kernel, by decide +kernel⟩
  intro k
  simp only [mapOf, Spec.run, Spec.step, Spec.State.update, List.foldl_cons, List.foldl_nil, List.nil_append,
    List.getElem?_cons_zero, List.set_cons_zero, Option.getD_some]
  by_cases h1 : k = [1] <;> by_cases h2 : k = [1, 2] <;> simp_all [Spec.Map.set]

/-- A plain program that removes everything: the longer key first. -/
def emptied : List Op := [.new, .insert 0 [1] [5], .insert 0 [1, 2] [6], .commit 0, .remove 0 [1, 2], .remove 0 [1]]

example : Spec.Plain emptied ∧ rootAfter (emptied ++ [.commit 0]) ≠ some (Trie.new exK).rootHash ∧
    (result false (emptied ++ [.commit 0])).1.roots[1]? = some (Trie.new exK).rootHash := by
  refine ⟨?_, by decide +kernel, by decide +kernel⟩
  refine ⟨trivial, trivial, trivial, trivial, ?_, ?_, trivial⟩
  · refine fun m hm => .inr (.inl fun k hk => ?_)
    have hm' := Option.some.inj hm
    subst hm'
    obtain ⟨x, hx, rfl⟩ := hk
    simp [Spec.Map.set, hx]
  · refine fun m hm => .inr (.inl fun k hk => ?_)
    have hm' := Option.some.inj hm
    subst hm'
    obtain ⟨x, hx, rfl⟩ := hk
    by_cases hy : x = [2] <;> simp [Spec.Map.set, hx, hy]

/-- A removal of a prefix of two keys that part at it. -/
def parted : List Op := [.new, .insert 0 [1] [5], .insert 0 [1, 0x20] (long 1), .insert 0 [1, 0x30] [6], .remove 0 [1]]

theorem parted_plain : Spec.Plain parted := by
  refine ⟨trivial, trivial, trivial, trivial, fun m hm => .inr (.inr ?_), trivial⟩
  have hm' := Option.some.inj hm
  subst hm'
  exact ⟨0x20, 0x30, [], [], by decide, by decide +kernel, by decide +kernel⟩

/-- It leaves nothing behind: the root hash is that of the two keys. -/
example : ∃ h a1 b1 a2 b2, (handle false parted 0).commit exK (result false parted).1.db = .ok (a1, b1, .ok h) ∧
    (handle false [.new, .insert 0 [1, 0x30] [6], .insert 0 [1, 0x20] (long 1)] 0).commit exK
      (result false [.new, .insert 0 [1, 0x30] [6], .insert 0 [1, 0x20] (long 1)]).1.db = .ok (a2, b2, .ok h) := by
  have hm : mapOf parted 0 = mapOf [.new, .insert 0 [1, 0x30] [6], .insert 0 [1, 0x20] (long 1)] 0 := by
    funext k
    simp only [mapOf, parted, Spec.run, Spec.step, Spec.State.update, List.foldl_cons, List.foldl_nil, List.nil_append,
      List.getElem?_cons_zero, List.set_cons_zero, Option.getD_some, show long 1 ≠ [] by decide, if_false]
    by_cases h1 : k = [1] <;> by_cases h2 : k = [1, 0x20] <;> by_cases h3 : k = [1, 0x30] <;> simp_all [Spec.Map.set]
  rcases C39_contents_partial (K := exK) (ops1 := parted) (ops2 := [.new, .insert 0 [1, 0x30] [6], .insert 0 [1, 0x20] (long 1)])
    (by intro op hop
        simp only [parted, List.mem_cons, List.not_mem_nil, or_false] at hop
        rcases hop with rfl | rfl | rfl | rfl | rfl <;> simp [Spec.Fits, long])
    (by intro op hop
        simp only [List.mem_cons, List.not_mem_nil, or_false] at hop
        rcases hop with rfl | rfl | rfl <;> simp [Spec.Fits, long])
    parted_plain ⟨trivial, trivial, trivial, trivial⟩ (result_eq (by decide +kernel)) (result_eq (by decide +kernel)) (i1 := 0) (i2 := 0)
    (handle_eq (by decide +kernel)) (handle_eq (by decide +kernel)) (mapOf_eq (by decide +kernel))
    (by rw [hm]; exact mapOf_eq (by decide +kernel)) with h | h | h
  · exact absurd h (by decide +kernel)
  · exact absurd h (by decide +kernel)
  · exact h

/-- **C40.** After any program on a new archive database, every root hash returned by a `commit` opened with `at_root` gives the contents at the
time of that commit, or two different stored byte strings have the same hash. -/
theorem C40_committed_roots_readable {ops : List Op} (hfit : ∀ op ∈ ops, Spec.Fits op) {s : Sys} {rs : List Ret}
    (hrun : (Sys.new false).run K ops = .ok (s, rs)) :
    Spec.Collision K s.db.log ∨ ((rs.filterMap Spec.rootOf).length = (Spec.run ops).snaps.length ∧
      ∀ (j : Nat) (h : H256) (m : Spec.Map), (rs.filterMap Spec.rootOf)[j]? = some h → (Spec.run ops).snaps[j]? = some m →
        ∀ k, (Trie.atRoot h).get s.db k = .ok (m k) ∧ (Trie.atRoot h).contains s.db k = .ok (m k).isSome) := by
  rcases collision_or K s.db.log with hc | hc
  · exact .inl hc
  have g := SysInv.new (K := K) (P := False) |>.run hfit (fun p => p.elim) hrun hc
  have hr : s.roots = rs.filterMap Spec.rootOf := by rw [Sys.run_roots hrun]; simp [Sys.new]
  rw [← hr]
  refine .inr ⟨g.roots.1, fun j h m hh hm k => ?_⟩
  obtain ⟨t, e, h1, h2, h3, _⟩ := g.roots.2 j h m hh hm
  have hinv : HandleInv K False s.db (Trie.atRoot h) m := by
    refine ⟨(by intro e he; cases he), t, ?_, h2, h3, fun p => p.elim⟩
    simp only [Trie.atRoot, e]
    exact .hash h1
  exact ⟨Trie.get_ok (g.db.reads hc) hinv k, Trie.contains_ok (g.db.reads hc) hinv k⟩

/-- The first commit of the example, opened after two more commits. -/
example : ((Trie.atRoot ((result false exOps).1.roots[0]?.getD (exK []))).get (result false exOps).1.db [0x12, 0x35]).toOption
    = some (some [7]) := by decide +kernel

/-- **C54.** Equal root hashes of commits (of the same or of different programs) stand for equal contents, or two different stored byte strings
have the same hash. -/
theorem C54_root_determines_contents {ops1 ops2 : List Op} (hfit1 : ∀ op ∈ ops1, Spec.Fits op) (hfit2 : ∀ op ∈ ops2, Spec.Fits op)
    {s1 s2 : Sys} {rs1 rs2 : List Ret} (hrun1 : (Sys.new false).run K ops1 = .ok (s1, rs1))
    (hrun2 : (Sys.new false).run K ops2 = .ok (s2, rs2)) {j1 j2 : Nat} {h : H256}
    (hh1 : (rs1.filterMap Spec.rootOf)[j1]? = some h) (hh2 : (rs2.filterMap Spec.rootOf)[j2]? = some h) {m1 m2 : Spec.Map}
    (hm1 : (Spec.run ops1).snaps[j1]? = some m1) (hm2 : (Spec.run ops2).snaps[j2]? = some m2) :
    Spec.Collision K (s1.db.log ++ s2.db.log) ∨ m1 = m2 := by
  rcases collision_or K (s1.db.log ++ s2.db.log) with hc | hc
  · exact .inl hc
  have hc1 : NoClash K s1.db.log := hc.subset (fun x hx => List.mem_append_left _ hx)
  have hc2 : NoClash K s2.db.log := hc.subset (fun x hx => List.mem_append_right _ hx)
  have g1 := SysInv.new (K := K) (P := False) |>.run hfit1 (fun p => p.elim) hrun1 hc1
  have g2 := SysInv.new (K := K) (P := False) |>.run hfit2 (fun p => p.elim) hrun2 hc2
  rw [show rs1.filterMap Spec.rootOf = s1.roots by rw [Sys.run_roots hrun1]; simp [Sys.new]] at hh1
  rw [show rs2.filterMap Spec.rootOf = s2.roots by rw [Sys.run_roots hrun2]; simp [Sys.new]] at hh2
  obtain ⟨t1, e1, a1, b1, c1, _⟩ := g1.roots.2 j1 h m1 hh1 hm1
  obtain ⟨t2, e2, a2, b2, c2, _⟩ := g2.roots.2 j2 h m2 hh2 hm2
  have hin1 : ∀ b, InLog s1.db b → b ∈ s1.db.log ++ s2.db.log := fun b hb => List.mem_append_left _ hb
  have hin2 : ∀ b, InLog s2.db b → b ∈ s1.db.log ++ s2.db.log := fun b hb => List.mem_append_right _ hb
  have he : enc K t1 = enc K t2 := hc _ (hin1 _ a1.1) _ (hin2 _ a2.1) (e1.symm.trans e2)
  have : t1 = t2 := enc_inj (S := fun b => b ∈ s1.db.log ++ s2.db.log) hc b1 b2 (a1.2.mono hin1) (a2.2.mono hin2) he
  subst this
  exact .inr (funext fun k => (c1.get k).symm.trans (c2.get k))

/-- Two programs with a common root. -/
example : rootAfter (orderA ++ [.commit 0]) ≠ none ∧
    (result false (orderA ++ [.commit 0])).1.roots[1]? = rootAfter (orderB ++ [.commit 0]) := by
  refine ⟨by decide +kernel, by decide +kernel⟩

end Verif.Props
