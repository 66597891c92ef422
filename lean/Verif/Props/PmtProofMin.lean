import Verif.Proofs.PmtProofMin
import Verif.Props.PmtProofs
import Verif.Props.PmtFault
/-! Which lists of nodes the Patricia trie accepts as proofs: C68. -/

set_option autoImplicit false

namespace Verif.Props
open Verif Verif.Pmt PmtEx
open Verif.Pmt.PT (enc)

variable {K : Keccak}

/-- **C68.** A trie that is not empty (one of several over an archive database, after any program) is committed. `get_proof` of a key then returns
byte strings, all different and at most `2 * length + 1` of them. `verify_proof` of any list whatsoever against the root hash gives what the trie
has for the key if the list has all of these byte strings, in any order and among any others; it refuses the list if it lacks one of them.
Otherwise two of the stored byte strings and those of the list have the same hash. -/
theorem C68_accepts_exactly {ops : List Op} (hfit : ∀ op ∈ ops, Spec.Fits op) {s : Sys} {rs : List Ret}
    (hrun : (Sys.new false).run K ops = .ok (s, rs)) {i : Nat} {tr tr' : Trie} {m : Spec.Map} (htr : s.tries[i]? = some tr)
    (hm : (Spec.run ops).maps[i]? = some m) (hne : ∃ k, (m k).isSome) {db' : Db} {h : H256}
    (hc : tr.commit K s.db = .ok (tr', db', .ok h)) (k : Bytes) (proof : List Bytes) :
    Spec.Collision K (db'.log ++ proof) ∨
      ∃ tr'' l, tr'.getProof K db' k = .ok (tr'', .ok l) ∧ l.Nodup ∧ l.length ≤ 2 * k.length + 1 ∧
        ((∀ b ∈ l, b ∈ proof) → verifyProof K h k proof = .ok (m k)) ∧
        (¬ (∀ b ∈ l, b ∈ proof) → verifyProof K h k proof = .error (.err "InvalidProof")) := by
  rcases collision_or K (db'.log ++ proof) with hcl | hcl
  · exact .inl hcl
  have hcl' : NoClash K db'.log := hcl.subset (fun x hx => List.mem_append_left _ hx)
  have hcl0 : NoClash K s.db.log := hcl'.subset (Trie.commit_log hc)
  have g := SysInv.new (K := K) (P := False) |>.run hfit (fun p => p.elim) hrun hcl0
  obtain ⟨a, b, t, e, hdb, _, _, hheld, hok, ag, _, hroot⟩ := Trie.commit_ok g.db (g.tries.2 i tr m htr hm)
  rw [e] at hc
  cases hc
  have hte : t ≠ .empty := by
    rintro rfl
    obtain ⟨k0, hk0⟩ := hne
    rw [← ag.get k0] at hk0
    cases hk0
  obtain ⟨tr'', h1, h2⟩ := getProof_nodes (hdb.reads hcl') (fun a ha b hb => hcl' a ha b hb) hok hheld hte (hroot hcl') k
  obtain ⟨h3, h4⟩ := verifyProof_exact hok hheld k (proof := proof) (fun a ha b hb => hcl a (List.mem_append.2 ha) b (List.mem_append.2 hb))
  have hiff : (∀ b ∈ (t :: chain K t (nibsOf k)).map (enc K), b ∈ proof) ↔ ∀ s ∈ t :: chain K t (nibsOf k), enc K s ∈ proof := List.forall_mem_map
  rw [ag.get k] at h3
  refine .inr ⟨tr'', _, h1, h2, ?_, fun h => h3 (hiff.1 h), fun h => h4 (fun h' => h (hiff.2 h'))⟩
  have := chain_length (K := K) hok (nibsOf k)
  rw [nibsOf_length] at this
  simp only [List.length_map, List.length_cons]
  omega

/-- The trie of `faultOps`, committed once more. -/
def fourCommit : Trie × Db × Except String H256 :=
  ((handle false faultOps 0).commit exK (result false faultOps).1.db).toOption.getD (Trie.new exK, Db.new false, .error "")

/-- The root hash returned. -/
def fourRoot : H256 := fourCommit.2.2.toOption.getD (exK [])

theorem fourCommit_eq : (handle false faultOps 0).commit exK (result false faultOps).1.db = .ok (fourCommit.1, fourCommit.2.1, .ok fourRoot) := by
  have h1 : ((handle false faultOps 0).commit exK (result false faultOps).1.db).toOption.isSome = true := by decide +kernel
  have h2 : fourCommit.2.2.toOption.isSome = true := by decide +kernel
  unfold fourRoot
  unfold fourCommit at *
  generalize (handle false faultOps 0).commit exK (result false faultOps).1.db = x at *
  cases x with
  | error => cases h1
  | ok y =>
    obtain ⟨a, b, c⟩ := y
    cases c with
    | error => cases h2
    | ok => rfl

/-- The proof of a key in the example. -/
def fourProof (k : Bytes) : List Bytes :=
  match fourCommit.1.getProof exK fourCommit.2.1 k with
  | .ok (_, .ok l) => l
  | _ => []

/-- The proof of this key has four nodes. Reversed and with another byte string it is accepted, without its second node it is not. -/
example : (fourProof [0x12, 0x34]).length = 4 ∧
    (verifyProof exK fourRoot [0x12, 0x34] ((fourProof [0x12, 0x34]).reverse ++ [[1]])).toOption = some (some (long 1)) ∧
    (verifyProof exK fourRoot [0x12, 0x34] ((fourProof [0x12, 0x34]).eraseIdx 1)).toOption = none := by
  decide +kernel

/-- The hypotheses of the theorem are met. -/
example (proof : List Bytes) : Spec.Collision exK (fourCommit.2.1.log ++ proof) ∨
    ∃ tr'' l, fourCommit.1.getProof exK fourCommit.2.1 [0x12, 0x34] = .ok (tr'', .ok l) ∧ l.Nodup ∧ l.length ≤ 5 ∧
      ((∀ b ∈ l, b ∈ proof) → verifyProof exK fourRoot [0x12, 0x34] proof = .ok (mapOf faultOps 0 [0x12, 0x34])) ∧
      (¬ (∀ b ∈ l, b ∈ proof) → verifyProof exK fourRoot [0x12, 0x34] proof = .error (.err "InvalidProof")) :=
  C68_accepts_exactly faultOps_fits (faultOps_run false) (handle_eq (light := false) (ops := faultOps) (i := 0) (by decide +kernel))
    (mapOf_eq (ops := faultOps) (i := 0) (by decide +kernel)) ⟨[0x22], by decide +kernel⟩ fourCommit_eq [0x12, 0x34] proof

end Verif.Props
