import Verif.Proofs.PmtTotal
import Verif.Proofs.PmtNode
import Verif.Props.PmtExamples
/-! Proofs of the Patricia trie: C42, C43, C44. -/

set_option autoImplicit false

namespace Verif.Props
open Verif Verif.Pmt PmtEx
open Verif.Pmt.PT (enc)

variable {K : Keccak}

/-- **C42** for a trie that is not empty. A trie (one of several over an archive database, after any program) is committed; then `get_proof` of
any key succeeds, and `verify_proof` of it against the returned root hash gives what the trie has for the key. Otherwise two of the stored
byte strings have the same hash. Missing from the full statement: the empty trie, for which it is false
(`C42_empty_trie_false`), and views made by `at_root`, on which `get_proof` panics before the first `commit` (`C42_view_panics`). -/
theorem C42_proofs_verify_partial {ops : List Op} (hfit : ∀ op ∈ ops, Spec.Fits op) {s : Sys} {rs : List Ret}
    (hrun : (Sys.new false).run K ops = .ok (s, rs)) {i : Nat} {tr tr' : Trie} {m : Spec.Map} (htr : s.tries[i]? = some tr)
    (hm : (Spec.run ops).maps[i]? = some m) (hne : ∃ k, (m k).isSome) {db' : Db} {h : H256}
    (hc : tr.commit K s.db = .ok (tr', db', .ok h)) (k : Bytes) :
    Spec.Collision K db'.log ∨
      ∃ tr'' l, tr'.getProof K db' k = .ok (tr'', .ok l) ∧ verifyProof K h k l = .ok (m k) := by
  rcases collision_or K db'.log with hcl | hcl
  · exact .inl hcl
  have hcl0 : NoClash K s.db.log := hcl.subset (Trie.commit_log hc)
  have g := SysInv.new (K := K) (P := False) |>.run hfit (fun p => p.elim) hrun hcl0
  obtain ⟨a, b, t, e, hdb, _, _, hheld, hok, ag, _, hroot⟩ := Trie.commit_ok g.db (g.tries.2 i tr m htr hm)
  rw [e] at hc
  cases hc
  have hte : t ≠ .empty := by
    rintro rfl
    obtain ⟨k0, hk0⟩ := hne
    rw [← ag.get k0] at hk0
    cases hk0
  obtain ⟨tr'', l, h1, _, h3⟩ := getProof_verifies (hdb.reads hcl) (fun a ha b hb => hcl a ha b hb) hok hheld hte (hroot hcl) k
  rw [ag.get k] at h3
  exact .inr ⟨tr'', l, h1, h3⟩

/-- The first trie of the example, committed once more. -/
def exCommit : Trie × Db × Except String H256 :=
  ((handle false exOps 0).commit exK (result false exOps).1.db).toOption.getD (Trie.new exK, Db.new false, .error "")

/-- The root hash returned. -/
def exRoot : H256 := exCommit.2.2.toOption.getD (exK [])

theorem exCommit_eq : (handle false exOps 0).commit exK (result false exOps).1.db = .ok (exCommit.1, exCommit.2.1, .ok exRoot) := by
  have h1 : ((handle false exOps 0).commit exK (result false exOps).1.db).toOption.isSome = true := by decide +kernel
  have h2 : exCommit.2.2.toOption.isSome = true := by decide +kernel
  unfold exRoot
  unfold exCommit at *
  generalize (handle false exOps 0).commit exK (result false exOps).1.db = x at *
  cases x with
  | error => cases h1
  | ok y =>
    obtain ⟨a, b, c⟩ := y
    cases c with
    | error => cases h2
    | ok => rfl

/-- The hypotheses of the theorem are met: the proof of a removed key verifies as a proof of absence, that of a present key gives its value. -/
example : (∃ tr'' l, exCommit.1.getProof exK exCommit.2.1 [0x12, 0x35] = .ok (tr'', .ok l) ∧ verifyProof exK exRoot [0x12, 0x35] l = .ok none) ∧
    ∃ tr'' l, exCommit.1.getProof exK exCommit.2.1 [0x12] = .ok (tr'', .ok l) ∧ verifyProof exK exRoot [0x12] l = .ok (some [9]) := by
  have hne : ∃ k, (mapOf exOps 0 k).isSome := ⟨[0x12], by decide +kernel⟩
  have htr := handle_eq (light := false) (ops := exOps) (i := 0) (by decide +kernel)
  have hm := mapOf_eq (ops := exOps) (i := 0) (by decide +kernel)
  have e1 : mapOf exOps 0 [0x12, 0x35] = none := by decide +kernel
  have e2 : mapOf exOps 0 [0x12] = some [9] := by decide +kernel
  have hcl : ¬ Spec.Collision exK exCommit.2.1.log := by decide +kernel
  refine ⟨?_, ?_⟩
  · have := (C42_proofs_verify_partial exOps_fits exOps_run htr hm hne exCommit_eq [0x12, 0x35]).resolve_left hcl
    rwa [e1] at this
  · have := (C42_proofs_verify_partial exOps_fits exOps_run htr hm hne exCommit_eq [0x12]).resolve_left hcl
    rwa [e2] at this

/-- **C42 is false** for the empty trie: its proof is empty, and an empty proof is invalid for every root hash, also for that of the
empty trie. -/
theorem C42_empty_trie_false (K : Keccak) (k : Bytes) :
    (∃ s, (Sys.new false).run K [.new, .commit 0, .proof 0 k] = .ok (s, [.done, .root (K [0x80]), .proof []])) ∧
      verifyProof K (K [0x80]) k [] = .error (.err "InvalidProof") := by
  constructor
  · refine ⟨⟨(Db.new false).insert (K [0x80]) [0x80], [⟨.empty, K [0x80], [], [], []⟩], [K [0x80]]⟩, ?_⟩
    have e : recover ((Db.new false).insert (K [0x80]) [0x80]) (K [0x80]) = .ok (some .empty) := by
      unfold recover
      rw [insert_get, if_pos rfl]
      rfl
    have c : (Trie.new K).commit K (Db.new false) = .ok (⟨.empty, K [0x80], [], [], []⟩, (Db.new false).insert (K [0x80]) [0x80], .ok (K [0x80])) := by
      show (match recover ((Db.new false).insert (K [0x80]) [0x80]) (K [0x80]) with
        | .error (.panic m) => .error (.panic m)
        | .error (.err m) => .ok ((⟨.empty, K [0x80], [], [], []⟩ : Trie), (Db.new false).insert (K [0x80]) [0x80], .error m)
        | .ok none => .error (.panic "The root that was just created is missing")
        | .ok (some n) => .ok ((⟨n, K [0x80], [], [], []⟩ : Trie), (Db.new false).insert (K [0x80]) [0x80], .ok (K [0x80])) :
          Res (Trie × Db × Except String H256)) = _
      rw [e]
    have hp : ∀ db, Trie.getProof K ⟨.empty, K [0x80], [], [], []⟩ db k = .ok (⟨.empty, K [0x80], [], [], []⟩, .ok []) := by
      intro db
      have : pathAt db (hops db (Trie.path k)) .empty (Trie.path k) = .ok [] := by
        cases hops db (Trie.path k) <;> rfl
      unfold Trie.getProof
      rw [this]
      rfl
    simp only [Sys.run, Sys.step, Sys.new, List.nil_append, List.getElem?_cons_zero, Sys.commit, c, List.set_cons_zero, Sys.proof, hp, Sys.put]
  · unfold verifyProof Trie.get Trie.atRoot
    rcases hf : hops (proofDb K (K [0x80]) []) (Trie.path k) with _ | f
    · unfold hops at hf
      simp at hf
    · simp only
      rfl

/-- **C42 is false** on a view: `get_proof` on the view of any committed root, made by `at_root`, panics for every key. -/
theorem C42_view_panics {ops : List Op} (hfit : ∀ op ∈ ops, Spec.Fits op) {s : Sys} {rs : List Ret}
    (hrun : (Sys.new false).run K ops = .ok (s, rs)) {j : Nat} {h : H256} (hh : (rs.filterMap Spec.rootOf)[j]? = some h) (k : Bytes) :
    Spec.Collision K s.db.log ∨ ∃ msg, (Trie.atRoot h).getProof K s.db k = .error (.panic msg) := by
  rcases collision_or K s.db.log with hc | hc
  · exact .inl hc
  have g := SysInv.new (K := K) (P := False) |>.run hfit (fun p => p.elim) hrun hc
  have hr : s.roots = rs.filterMap Spec.rootOf := by rw [Sys.run_roots hrun]; simp [Sys.new]
  rw [← hr] at hh
  have hlen := g.roots.1
  have hj : j < s.roots.length := (List.getElem?_eq_some_iff.1 hh).1
  obtain ⟨t, rfl, held, hok, ag, hcn⟩ := g.roots.2 j h _ hh (List.getElem?_eq_getElem (by omega))
  have hv : HandleInv K False s.db (Trie.atRoot (K (enc K t))) _ := ⟨fun e he => (by cases he), t, .hash held, hok, ag, hcn⟩
  rcases Trie.getProof_ok (g.db.reads hc) hv k with ⟨tr', l, e, _⟩ | ⟨_, e⟩
  · exfalso
    unfold Trie.getProof at e
    split at e
    · cases e
    · cases e
    · next l' _ =>
      have : Trie.encodeAll K (l' ++ [Node.hash (K (enc K t))]).reverse = .error (.panic "internal error: entered unreachable code") := by
        rw [List.reverse_append]
        rfl
      simp only [Trie.atRoot, this, Res.error_bind] at e
      cases e
  · exact .inr e

/-- The root hashes returned by the commits of the example. -/
def exRootOf (j : Nat) : H256 := (((result false exOps).2.filterMap Spec.rootOf)[j]?).getD (exK [])

theorem exRootOf_eq {j : Nat} (h : (((result false exOps).2.filterMap Spec.rootOf)[j]?).isSome = true) :
    ((result false exOps).2.filterMap Spec.rootOf)[j]? = some (exRootOf j) := by
  unfold exRootOf
  generalize ((result false exOps).2.filterMap Spec.rootOf)[j]? = x at *
  cases x with
  | none => cases h
  | some => rfl

/-- The hypotheses of the theorem are met. -/
example : ∃ msg, (Trie.atRoot (exRootOf 1)).getProof exK (result false exOps).1.db [0x12] = .error (.panic msg) :=
  (C42_view_panics exOps_fits exOps_run (exRootOf_eq (j := 1) (by decide +kernel)) [0x12]).resolve_left exOps_noCollision

/-- **C43.** For the root hash of any commit of a program and any proof whatsoever, `verify_proof` gives what the committed trie had for the
key, or refuses the proof; otherwise two of the stored byte strings and those of the proof have the same hash. -/
theorem C43_proof_sound {ops : List Op} (hfit : ∀ op ∈ ops, Spec.Fits op) {s : Sys} {rs : List Ret}
    (hrun : (Sys.new false).run K ops = .ok (s, rs)) {j : Nat} {h : H256} {m : Spec.Map} (hh : (rs.filterMap Spec.rootOf)[j]? = some h)
    (hm : (Spec.run ops).snaps[j]? = some m) (k : Bytes) (proof : List Bytes) :
    Spec.Collision K (s.db.log ++ proof) ∨ verifyProof K h k proof = .ok (m k) ∨ verifyProof K h k proof = .error (.err "InvalidProof") := by
  rcases collision_or K (s.db.log ++ proof) with hc | hc
  · exact .inl hc
  have hc0 : NoClash K s.db.log := hc.subset (fun x hx => List.mem_append_left _ hx)
  have g := SysInv.new (K := K) (P := False) |>.run hfit (fun p => p.elim) hrun hc0
  have hr : s.roots = rs.filterMap Spec.rootOf := by rw [Sys.run_roots hrun]; simp [Sys.new]
  rw [← hr] at hh
  obtain ⟨t, rfl, held, hok, ag, _⟩ := g.roots.2 j h m hh hm
  have := verifyProof_sound (K := K) (S := InLog s.db) hok held (proof := proof) (k := k)
    (fun a ha b hb => hc a (List.mem_append.2 ha) b (List.mem_append.2 hb))
  rw [ag.get k] at this
  exact .inr this

/-- The hypotheses of the theorem are met, and the conclusion distinguishes: the nodes of the second commit prove nothing about the first,
those of the first prove the value it had for a key that was changed later. -/
example : ¬ Spec.Collision exK ((result false exOps).1.db.log ++ [[1, 2], [0xc2, 0x80, 0x80]]) ∧
    (verifyProof exK (exRootOf 0) [0x12, 0x34] (result false exOps).1.db.log).toOption = some (some (long 1)) ∧
    (verifyProof exK (exRootOf 1) [0x12, 0x34] (result false exOps).1.db.log).toOption = some (some [1]) := by
  refine ⟨by decide +kernel, by decide +kernel, by decide +kernel⟩

example : verifyProof exK (exRootOf 0) [0x12, 0x34] [[1, 2], [0xc2, 0x80, 0x80]] = .ok (some (long 1)) ∨
    verifyProof exK (exRootOf 0) [0x12, 0x34] [[1, 2], [0xc2, 0x80, 0x80]] = .error (.err "InvalidProof") := by
  have hm : ∃ m, (Spec.run exOps).snaps[0]? = some m ∧ m [0x12, 0x34] = some (long 1) := by
    refine ⟨_, List.getElem?_eq_getElem (by decide +kernel), by decide +kernel⟩
  obtain ⟨m, h1, h2⟩ := hm
  have := (C43_proof_sound exOps_fits exOps_run (exRootOf_eq (j := 0) (by decide +kernel)) h1 [0x12, 0x34]
    [[1, 2], [0xc2, 0x80, 0x80]]).resolve_left (by decide +kernel)
  rwa [h2] at this

/-- **C44** for honest root hashes: `verify_proof` never panics on a root hash returned by a commit, whatever the proof is; otherwise two of
the stored byte strings and those of the proof have the same hash. Missing from the full statement: other root hashes, for which it is
false (`C44_verify_panics`). -/
theorem C44_honest_root_partial {ops : List Op} (hfit : ∀ op ∈ ops, Spec.Fits op) {s : Sys} {rs : List Ret}
    (hrun : (Sys.new false).run K ops = .ok (s, rs)) {j : Nat} {h : H256} (hh : (rs.filterMap Spec.rootOf)[j]? = some h)
    (k : Bytes) (proof : List Bytes) :
    Spec.Collision K (s.db.log ++ proof) ∨ (∃ v, verifyProof K h k proof = .ok v) ∨ verifyProof K h k proof = .error (.err "InvalidProof") := by
  rcases collision_or K (s.db.log ++ proof) with hc | hc
  · exact .inl hc
  have hc0 : NoClash K s.db.log := hc.subset (fun x hx => List.mem_append_left _ hx)
  have g := SysInv.new (K := K) (P := False) |>.run hfit (fun p => p.elim) hrun hc0
  have hr : s.roots = rs.filterMap Spec.rootOf := by rw [Sys.run_roots hrun]; simp [Sys.new]
  have hj : j < s.roots.length := by rw [hr]; exact (List.getElem?_eq_some_iff.1 hh).1
  have hlen : s.roots.length = (Spec.run ops).snaps.length := g.roots.1
  rcases C43_proof_sound hfit hrun hh (List.getElem?_eq_getElem (by omega)) k proof with h1 | h1 | h1
  · exact .inl h1
  · exact .inr (.inl ⟨_, h1⟩)
  · exact .inr (.inr h1)

/-- The hypotheses are met, by a panicking proof node that does not have the root hash. -/
example : (∃ v, verifyProof exK (exRootOf 0) [0x12, 0x34] [[0xc2, 0x80, 0x80]] = .ok v) ∨
    verifyProof exK (exRootOf 0) [0x12, 0x34] [[0xc2, 0x80, 0x80]] = .error (.err "InvalidProof") :=
  (C44_honest_root_partial exOps_fits exOps_run (exRootOf_eq (j := 0) (by decide +kernel)) [0x12, 0x34] _).resolve_left (by decide +kernel)

/-- **C44** for proofs whose parts can be decoded without panic and are not bare hashes: for every root hash, honest or not, `verify_proof`
returns `Ok` or `InvalidProof`. -/
theorem C44_harmless_parts_partial {proof : List Bytes} (h : ∀ b ∈ proof, (∀ msg, decodeNode b ≠ .error (.panic msg)) ∧ ∀ x, decodeNode b ≠ .ok (.hash x))
    (root : H256) (k : Bytes) :
    (∃ v, verifyProof K root k proof = .ok v) ∨ verifyProof K root k proof = .error (.err "InvalidProof") :=
  verifyProof_calm h

/-- The hypotheses are met by a short leaf and by bytes that are no node. -/
example : (∃ v, verifyProof exK (exK [0xc3, 0x20, 0x81, 0x80]) [] [[0xc4, 0x20, 0x82, 1, 2], [0x81, 0x90]] = .ok v) ∨
    verifyProof exK (exK [0xc3, 0x20, 0x81, 0x80]) [] [[0xc4, 0x20, 0x82, 1, 2], [0x81, 0x90]] = .error (.err "InvalidProof") := by
  refine C44_harmless_parts_partial ?_ _ _
  intro b hb
  simp only [List.mem_cons, List.not_mem_nil, or_false] at hb
  rcases hb with rfl | rfl
  · have e : decodeNode [0xc4, 0x20, 0x82, 1, 2] = .ok (.leaf (leafPath []) [1, 2]) :=
      decodeAux_leaf (l := []) (v := [1, 2]) (f := 6) (by simp) (by simp) (by decide +kernel)
    rw [e]
    exact ⟨fun msg h => (by cases h), fun x h => (by cases h)⟩
  · have e : decodeNode [0x81, 0x90] = .error (.err "bytes cannot be decoded into a node") := by
      have h : Rlp.prototype [0x81, 0x90] = .data 1 := rfl
      unfold decodeNode decodeAux
      rw [h]
      simp only
      exact if_neg (by decide +kernel)
    rw [e]
    exact ⟨fun msg h => (by cases h), fun x h => (by cases h)⟩

/-- **C44 is false**: a proof of one node with an empty compact path panics, for every key, on the root hash that fits it. -/
theorem C44_verify_panics (K : Keccak) (k : Bytes) :
    verifyProof K (K [0xc2, 0x80, 0x80]) k [[0xc2, 0x80, 0x80]] = .error (.panic "index out of bounds: compact[0]") := by
  have hdb : proofDb K (K [0xc2, 0x80, 0x80]) [[0xc2, 0x80, 0x80]] = (Db.new true).insert (K [0xc2, 0x80, 0x80]) [0xc2, 0x80, 0x80] := by
    simp [proofDb]
  have hfetch : fetch ((Db.new true).insert (K [0xc2, 0x80, 0x80]) [0xc2, 0x80, 0x80]) (K [0xc2, 0x80, 0x80])
      = .error (.panic "index out of bounds: compact[0]") := by
    unfold fetch recover
    rw [insert_get, if_pos rfl]
    rfl
  unfold verifyProof Trie.get Trie.atRoot
  rw [hdb]
  rcases hf : hops ((Db.new true).insert (K [0xc2, 0x80, 0x80]) [0xc2, 0x80, 0x80]) (Trie.path k) with _ | f
  · unfold hops at hf
    simp at hf
  · simp only [getAt, getStep, hfetch]

end Verif.Props
